import Verif.Model.Cli
import Verif.Spec.Cli
/-!
# Lemmas about reading the command line
-/

namespace Verif.Cli
open Verif Verif.Spec

set_option linter.unusedSimpArgs false

/-- One flag applied to a configuration. -/
def applyFlag (ps : Bytes → Option (List Bytes)) (c : Config) (f : Bytes × Option Bytes) : Option Config :=
  match boolFlag? f.1 with
  | some set => (parseBool (f.2.getD b!"true")).map (set c)
  | none => (valueFlag? ps f.1).bind fun set => f.2.bind (set c)

/-- All flags. -/
def applyFlags (ps : Bytes → Option (List Bytes)) (c : Config) : List (Bytes × Option Bytes) → Option Config
  | [] => some c
  | f :: fs => (applyFlag ps c f).bind fun c => applyFlags ps c fs

theorem splitFlag_some {n v : Bytes} (hn : n ≠ []) (h : 61 ∉ n) : splitFlag (n ++ 61 :: v) = (n, some v) := by
  cases n with
  | nil => exact absurd rfl hn
  | cons c r =>
    have hr : ∀ x ∈ r, (x != 61) = true := by
      intro x hx
      have : x ≠ 61 := fun h' => h (h' ▸ List.mem_cons_of_mem _ hx)
      simpa using this
    simp only [List.cons_append, splitFlag]
    rw [List.dropWhile_append_of_pos hr, List.takeWhile_append_of_pos hr]
    simp

theorem splitFlag_none {n : Bytes} (hn : n ≠ []) (h : 61 ∉ n) : splitFlag n = (n, none) := by
  cases n with
  | nil => exact absurd rfl hn
  | cons c r =>
    have hr : ∀ x ∈ r, (x != 61) = true := by
      intro x hx
      have : x ≠ 61 := fun h' => h (h' ▸ List.mem_cons_of_mem _ hx)
      simpa using this
    have h2 := List.dropWhile_append_of_pos (l₂ := []) hr
    simp only [List.append_nil, List.dropWhile_nil] at h2
    simp only [splitFlag, h2]

theorem splitFlag_spec (s : Bytes) : s = (splitFlag s).1 ++ (splitFlag s).2.elim [] (61 :: ·) := by
  cases s with
  | nil => rfl
  | cons c r =>
    cases hd : r.dropWhile (· != 61) with
    | nil => simp [splitFlag, hd]
    | cons x w =>
      have := List.takeWhile_append_dropWhile (p := (· != 61)) (l := r)
      have hx : x = 61 := by
        have h1 := List.head_dropWhile_not (p := (· != 61)) (l := r) (by simp [hd])
        simp only [hd, List.head_cons] at h1
        simpa using h1
      subst hx
      rw [hd] at this
      simp [splitFlag, hd, this]

/-- What happens with one flag. -/
def stepFlag (ps : Bytes → Option (List Bytes)) (c : Config) (body : Bytes) (args : List Bytes) : Except Err Config :=
  let (name, value) := splitFlag body
  match boolFlag? name with
  | some set =>
    match parseBool (value.getD b!"true") with
    | none => .error .badValue
    | some b => parseArgs ps (set c b) args
  | none =>
    match valueFlag? ps name with
    | none => .error (if name = b!"help" ∨ name = b!"h" then .help else .notDefined name)
    | some set =>
      match value, args with
      | some v, args =>
        match set c v with
        | none => .error .badValue
        | some c => parseArgs ps c args
      | none, [] => .error .needsArgument
      | none, v :: args =>
        match set c v with
        | none => .error .badValue
        | some c => parseArgs ps c args

theorem parseArgs_flag (ps c) (x : UInt8) (r : Bytes) (args : List Bytes) :
    parseArgs ps c ((45 :: x :: r) :: args) =
      if x = 45 ∧ r = [] then .ok { c with args := args }
      else
        let body := if x = 45 then r else x :: r
        if body = [] ∨ body.head? = some 45 ∨ body.head? = some 61 then .error .badSyntax
        else stepFlag ps c body args := by
  rw [parseArgs]; rfl

theorem parseArgs_dash {dash body : Bytes} (hd : dash ∈ [b!"-", b!"--"]) (hb : body ≠ []) (h1 : body.head? ≠ some 45) (h2 : body.head? ≠ some 61)
    (ps c) (args : List Bytes) : parseArgs ps c ((dash ++ body) :: args) = stepFlag ps c body args := by
  cases body with
  | nil => exact absurd rfl hb
  | cons y r =>
    have hy : y ≠ 45 := fun h => h1 (by simp [h])
    have hy' : y ≠ 61 := fun h => h2 (by simp [h])
    simp only [List.mem_cons, List.not_mem_nil, or_false] at hd
    rcases hd with rfl | rfl
    · show parseArgs ps c ((45 :: y :: r) :: args) = _
      rw [parseArgs_flag]; simp [hy, hy']
    · show parseArgs ps c ((45 :: 45 :: y :: r) :: args) = _
      rw [parseArgs_flag]; simp [hy, hy']

theorem names_fine : ∀ n ∈ boolFlags ++ valueFlags, n ≠ [] ∧ 61 ∉ n ∧ n.head? ≠ some 45 ∧ n.head? ≠ some 61 := by decide +kernel

theorem bool_some : ∀ n ∈ boolFlags, ∃ set, boolFlag? n = some set := by
  intro n hn
  have : ∀ n ∈ boolFlags, (boolFlag? n).isSome := by decide +kernel
  exact Option.isSome_iff_exists.mp (this n hn)

theorem bool_of_some {n : Bytes} {set} (h : boolFlag? n = some set) : n ∈ boolFlags := by
  simp only [boolFlag?] at h
  simp only [boolFlags, List.mem_cons, List.not_mem_nil, or_false]
  grind

theorem value_some (ps) : ∀ n ∈ valueFlags, boolFlag? n = none ∧ ∃ set, valueFlag? ps n = some set := by
  intro n hn
  have h1 : ∀ n ∈ valueFlags, boolFlag? n = none := by
    intro n hn
    have : ∀ n ∈ valueFlags, (boolFlag? n).isNone := by decide +kernel
    simpa using this n hn
  refine ⟨h1 n hn, ?_⟩
  simp only [valueFlags, List.mem_cons, List.not_mem_nil, or_false] at hn
  rcases hn with rfl | rfl | rfl | rfl | rfl | rfl | rfl | rfl | rfl <;> exact Option.isSome_iff_exists.mp rfl

theorem value_of_some {ps} {n : Bytes} {set} (h : valueFlag? ps n = some set) : n ∈ valueFlags := by
  simp only [valueFlag?] at h
  simp only [valueFlags, List.mem_cons, List.not_mem_nil, or_false]
  grind

theorem stepFlag_ok (ps c) {n : Bytes} {v : Option Bytes} {body : Bytes} (hs : splitFlag body = (n, v)) (args : List Bytes) :
    (n ∈ boolFlags → stepFlag ps c body args = match applyFlag ps c (n, v) with | none => .error .badValue | some c => parseArgs ps c args) ∧
    (n ∈ valueFlags → (∀ w, v = some w → stepFlag ps c body args = match applyFlag ps c (n, v) with | none => .error .badValue | some c => parseArgs ps c args) ∧
      (v = none → ∀ w as, args = w :: as → stepFlag ps c body args = match applyFlag ps c (n, some w) with | none => .error .badValue | some c => parseArgs ps c as)) := by
  constructor
  · intro hn
    obtain ⟨set, h⟩ := bool_some n hn
    simp only [stepFlag, hs, h, applyFlag]
    cases parseBool (v.getD b!"true") <;> rfl
  · intro hn
    obtain ⟨h0, set, h⟩ := value_some ps n hn
    constructor
    · intro w hw
      subst hw
      simp only [stepFlag, hs, h0, h, applyFlag, Option.bind_some]
    · intro hv w as ha
      subst hv; subst ha
      simp only [stepFlag, hs, h0, h, applyFlag, Option.bind_some]

theorem boolFlag_args {n : Bytes} {set} (h : boolFlag? n = some set) (c : Config) (b : Bool) : (set c b).args = c.args := by
  simp only [boolFlag?] at h
  grind

theorem valueFlag_args {ps} {n : Bytes} {set} (h : valueFlag? ps n = some set) {c c' : Config} {v : Bytes} (hc : set c v = some c') : c'.args = c.args := by
  simp only [valueFlag?] at h
  repeat' split at h
  all_goals (first | (cases h; done) | skip)
  all_goals (simp only [Option.some.injEq] at h; subst h; simp only [Option.map_eq_some_iff, Option.some.injEq] at hc)
  all_goals (first | (obtain ⟨x, _, rfl⟩ := hc; rfl) | (subst hc; rfl))

theorem applyFlag_args {ps c f c'} (h : applyFlag ps c f = some c') : c'.args = c.args := by
  simp only [applyFlag] at h
  split at h
  · rename_i set hs
    simp only [Option.map_eq_some_iff] at h
    obtain ⟨b, _, rfl⟩ := h
    exact boolFlag_args hs c b
  · simp only [Option.bind_eq_some_iff] at h
    obtain ⟨set, hs, v, _, hc⟩ := h
    exact valueFlag_args hs hc

/-- The parser follows the reading. -/
theorem parseArgs_reads (ps) {args flags rest} (h : Reads args flags rest) :
    ∀ c, c.args = [] → parseArgs ps c args = match applyFlags ps c flags with
      | none => .error .badValue
      | some c => .ok { c with args := rest } := by
  induction h with
  | done => intro c hc; simp only [parseArgs, applyFlags]; rw [← hc]
  | dashes rest => intro c hc; rw [parseArgs_flag]; simp [applyFlags]
  | positional a rest h =>
    intro c hc
    simp only [applyFlags]
    match a, h with
    | [], _ => rfl
    | [x], _ => rw [parseArgs]; intro x y h; cases h
    | x :: y :: r, h =>
      have hx : x ≠ 45 := by
        intro hx
        rcases h with h | h
        · simp only [List.length_cons] at h; omega
        · exact h (by simp [hx])
      rw [parseArgs]
      intro x' y' h
      simp only [List.cons.injEq] at h
      exact hx h.1
  | @bool dash name args flags rest hd hn h ih =>
    intro c hc
    obtain ⟨f1, f2, f3, f4⟩ := names_fine name (List.mem_append_left _ hn)
    rw [parseArgs_dash hd f1 f3 f4, (stepFlag_ok ps c (splitFlag_none f1 f2) args).1 hn, applyFlags]
    cases ha : applyFlag ps c (name, none) with
    | none => rfl
    | some c' => exact ih c' ((applyFlag_args ha).trans hc)
  | @withValue dash name v args flags rest hd hn h ih =>
    intro c hc
    obtain ⟨f1, f2, f3, f4⟩ := names_fine name hn
    have hh : (name ++ 61 :: v).head? = name.head? := by
      cases name with
      | nil => exact absurd rfl f1
      | cons => rfl
    have : dash ++ name ++ b!"=" ++ v = dash ++ (name ++ 61 :: v) := by simp
    rw [this, parseArgs_dash hd (by simp) (by rw [hh]; exact f3) (by rw [hh]; exact f4), applyFlags]
    have : stepFlag ps c (name ++ 61 :: v) args = match applyFlag ps c (name, some v) with | none => .error .badValue | some c => parseArgs ps c args := by
      have hs := stepFlag_ok ps c (splitFlag_some (v := v) f1 f2) args
      rcases List.mem_append.mp hn with hn | hn
      · exact hs.1 hn
      · exact (hs.2 hn).1 v rfl
    rw [this]
    cases ha : applyFlag ps c (name, some v) with
    | none => rfl
    | some c' => exact ih c' ((applyFlag_args ha).trans hc)
  | @nextArg dash name v args flags rest hd hn h ih =>
    intro c hc
    obtain ⟨f1, f2, f3, f4⟩ := names_fine name (List.mem_append_right _ hn)
    rw [parseArgs_dash hd f1 f3 f4, ((stepFlag_ok ps c (splitFlag_none f1 f2) (v :: args)).2 hn).2 rfl v args rfl, applyFlags]
    cases ha : applyFlag ps c (name, some v) with
    | none => rfl
    | some c' => exact ih c' ((applyFlag_args ha).trans hc)

/-- What is accepted can be read. -/
theorem reads_of_ok (ps) : ∀ (n : Nat) (args : List Bytes), args.length ≤ n → ∀ c c', parseArgs ps c args = .ok c' → ∃ flags rest, Reads args flags rest := by
  intro n
  induction n with
  | zero =>
    intro args hl c c' h
    have : args = [] := List.length_eq_zero_iff.mp (by omega)
    subst this
    exact ⟨_, _, .done⟩
  | succ n ih =>
    intro args hl c c' h
    match args, hl, h with
    | [], _, _ => exact ⟨_, _, .done⟩
    | [] :: as, _, _ => exact ⟨_, _, .positional _ _ (.inl (by simp))⟩
    | [x] :: as, _, _ => exact ⟨_, _, .positional _ _ (.inl (by simp))⟩
    | (x :: y :: r) :: as, hl, h =>
      by_cases hx : x = 45
      · subst hx
        rw [parseArgs_flag] at h
        split at h
        · rename_i hxy
          obtain ⟨rfl, rfl⟩ := hxy
          exact ⟨_, _, .dashes as⟩
        · rename_i hne
          dsimp only at h
          have hbody : ∃ dash body, dash ∈ [b!"-", b!"--"] ∧ 45 :: y :: r = dash ++ body ∧ (if y = 45 then r else y :: r) = body := by
            by_cases hy : y = 45
            · subst hy; exact ⟨b!"--", r, by simp, rfl, by simp⟩
            · exact ⟨b!"-", y :: r, by simp, rfl, by simp [hy]⟩
          obtain ⟨dash, body, hd, e1, e2⟩ := hbody
          rw [e2] at h
          rw [e1]
          split at h
          · cases h
          · have hsp := splitFlag_spec body
            rw [stepFlag] at h
            generalize splitFlag body = nv at h hsp
            obtain ⟨name, v⟩ := nv
            dsimp only at h hsp
            simp only [List.length_cons] at hl
            split at h
            · rename_i set hs
              split at h
              · cases h
              · obtain ⟨flags, rest, hr⟩ := ih as (by omega) _ _ h
                cases v with
                | none =>
                  have : body = name := by simpa using hsp
                  rw [this]
                  exact ⟨(name, none) :: flags, rest, .bool hd (bool_of_some hs) hr⟩
                | some w =>
                  have : dash ++ body = dash ++ name ++ b!"=" ++ w := by rw [hsp]; simp
                  rw [this]
                  exact ⟨(name, some w) :: flags, rest, .withValue hd (List.mem_append_left _ (bool_of_some hs)) hr⟩
            · split at h
              · cases h
              · rename_i set hs
                split at h
                · rename_i w
                  split at h
                  · cases h
                  · obtain ⟨flags, rest, hr⟩ := ih as (by omega) _ _ h
                    have : dash ++ body = dash ++ name ++ b!"=" ++ w := by rw [hsp]; simp
                    rw [this]
                    exact ⟨(name, some w) :: flags, rest, .withValue hd (List.mem_append_right _ (value_of_some hs)) hr⟩
                · cases h
                · split at h
                  · cases h
                  · rename_i v as' _ _ _
                    obtain ⟨flags, rest, hr⟩ := ih as' (by simp only [List.length_cons] at hl; omega) _ _ h
                    have : body = name := by simpa using hsp
                    rw [this]
                    exact ⟨(name, some v) :: flags, rest, .nextArg hd (value_of_some hs) hr⟩
      · exact ⟨_, _, .positional _ _ (.inr (by simpa using hx))⟩

/-- The shape of the flags of a reading. -/
def Shaped (f : Bytes × Option Bytes) : Prop := f.1 ∈ boolFlags ∨ (f.1 ∈ valueFlags ∧ f.2 ≠ none)

theorem reads_shaped {args flags rest} (h : Reads args flags rest) : ∀ f ∈ flags, Shaped f := by
  induction h with
  | done => simp
  | dashes => simp
  | positional => simp
  | bool hd hn h ih =>
    intro f hf
    rcases List.mem_cons.mp hf with rfl | hf
    · exact .inl hn
    · exact ih f hf
  | withValue hd hn h ih =>
    intro f hf
    rcases List.mem_cons.mp hf with rfl | hf
    · rcases List.mem_append.mp hn with hn | hn
      · exact .inl hn
      · exact .inr ⟨hn, by simp⟩
    · exact ih f hf
  | nextArg hd hn h ih =>
    intro f hf
    rcases List.mem_cons.mp hf with rfl | hf
    · exact .inr ⟨hn, by simp⟩
    · exact ih f hf

/-- When one flag is fine. -/
def FlagOk (ps : Bytes → Option (List Bytes)) (c : Config) (f : Bytes × Option Bytes) : Prop :=
  (f.1 ∈ boolFlags → ∀ v, f.2 = some v → v ∈ yesWords ++ noWords) ∧
  (f.1 = b!"input" → c.input = []) ∧ (f.1 = b!"output" → c.output = []) ∧
  (f.1 ∈ [b!"input", b!"output", b!"include-selector", b!"exclude-selector"] → ∀ v, f.2 = some v → trimSpace v ≠ []) ∧
  (f.1 ∈ [b!"include-selector", b!"exclude-selector"] → ∀ v, f.2 = some v → (ps v).isSome)

theorem parseBool_isSome (v : Bytes) : (parseBool v).isSome ↔ v ∈ yesWords ++ noWords := by
  rw [parseBool, List.mem_append]
  show (if v ∈ yesWords then some true else if v ∈ noWords then some false else none).isSome ↔ _
  split
  · simp [*]
  · split <;> simp [*]

theorem parseBool_true (v : Bytes) : parseBool v = some true ↔ v ∈ yesWords := by
  rw [parseBool]
  show (if v ∈ yesWords then some true else if v ∈ noWords then some false else none) = _ ↔ _
  split
  · simp [*]
  · split <;> simp [*]

theorem applyFlag_isSome (ps c) (f : Bytes × Option Bytes) (hf : Shaped f) : (applyFlag ps c f).isSome ↔ FlagOk ps c f := by
  obtain ⟨n, v⟩ := f
  rcases hf with hn | ⟨hn, hv⟩
  · have key : ∀ n ∈ boolFlags, n ≠ b!"input" ∧ n ≠ b!"output" ∧ n ∉ [b!"input", b!"output", b!"include-selector", b!"exclude-selector"] ∧
        n ∉ [b!"include-selector", b!"exclude-selector"] := by decide +kernel
    obtain ⟨set, h⟩ := bool_some n hn
    obtain ⟨k1, k2, k3, k4⟩ := key n hn
    simp only [applyFlag, h, FlagOk, Option.isSome_map, parseBool_isSome, k1, k2, k3, k4, hn, true_implies, false_implies, and_true]
    cases v with
    | none => simp only [Option.getD_none, reduceCtorEq, false_implies, implies_true, iff_true]; decide
    | some w => simp
  · obtain ⟨w, rfl⟩ := Option.ne_none_iff_exists'.mp hv
    have hb : n ∉ boolFlags := by
      have : ∀ n ∈ valueFlags, n ∉ boolFlags := by decide +kernel
      exact this n hn
    simp only [FlagOk, hb, false_implies, true_and, applyFlag, (value_some ps n hn).1]
    simp only [valueFlags, List.mem_cons, List.not_mem_nil, or_false] at hn
    rcases hn with rfl | rfl | rfl | rfl | rfl | rfl | rfl | rfl | rfl <;>
      simp [valueFlag?, single, selector] <;> grind

/-- What a flag does to the fields that matter later. -/
theorem applyFlag_effect {ps c} {f : Bytes × Option Bytes} {c'} (h : applyFlag ps c f = some c') :
    (c'.input = [] ↔ c.input = [] ∧ f.1 ≠ b!"input") ∧ (c'.output = [] ↔ c.output = [] ∧ f.1 ≠ b!"output") ∧
    (c'.overwrite = if f.1 = b!"output-overwrite" then decide (f.2.getD b!"true" ∈ yesWords) else c.overwrite) ∧
    (c'.table = if f.1 = b!"plugin-table" then decide (f.2.getD b!"true" ∈ yesWords) else c.table) ∧
    (c'.skipEmptyRows = if f.1 = b!"opt-table-skip-empty-rows" then decide (f.2.getD b!"true" ∈ yesWords) else c.skipEmptyRows) ∧
    (c'.headerPromotion = if f.1 = b!"opt-table-header-promotion" then decide (f.2.getD b!"true" ∈ yesWords) else c.headerPromotion) ∧
    (c'.presentationTables = if f.1 = b!"opt-table-presentation-tables" then decide (f.2.getD b!"true" ∈ yesWords) else c.presentationTables) ∧
    (c'.spanCellBehavior = if f.1 = b!"opt-table-span-cell-behavior" then f.2.getD [] else c.spanCellBehavior) ∧
    (c'.newlineBehavior = if f.1 = b!"opt-table-newline-behavior" then f.2.getD [] else c.newlineBehavior) ∧
    (c'.cellPaddingBehavior = if f.1 = b!"opt-table-cell-padding-behavior" then f.2.getD [] else c.cellPaddingBehavior) ∧
    (c'.version = if f.1 = b!"version" ∨ f.1 = b!"v" then decide (f.2.getD b!"true" ∈ yesWords) else c.version) ∧
    (c'.strongDelimiter = if f.1 = b!"opt-strong-delimiter" then f.2.getD [] else c.strongDelimiter) := by
  obtain ⟨n, v⟩ := f
  simp only [applyFlag] at h
  split at h
  · rename_i set hs
    simp only [Option.map_eq_some_iff] at h
    obtain ⟨b, hb, rfl⟩ := h
    have hb : b = decide (v.getD b!"true" ∈ yesWords) := by
      cases b
      · symm; rw [decide_eq_false_iff_not, ← parseBool_true, hb]; simp
      · symm; rw [decide_eq_true_iff, ← parseBool_true, hb]
    subst hb
    have hn := bool_of_some hs
    simp only [boolFlags, List.mem_cons, List.not_mem_nil, or_false] at hn
    rcases hn with rfl | rfl | rfl | rfl | rfl | rfl | rfl | rfl <;>
      (simp [boolFlag?] at hs; subst hs; simp)
  · simp only [Option.bind_eq_some_iff] at h
    obtain ⟨set, hs, w, rfl, h⟩ := h
    have hn := value_of_some hs
    simp only [valueFlags, List.mem_cons, List.not_mem_nil, or_false] at hn
    rcases hn with rfl | rfl | rfl | rfl | rfl | rfl | rfl | rfl | rfl <;>
      (simp [valueFlag?] at hs; subst hs; simp [single] at h) <;>
      first
        | (subst h; simp; done)
        | (obtain ⟨x, hx, rfl⟩ := h; obtain ⟨h1, h2, rfl⟩ := hx; simp [h1, h2]; done)
        | (obtain ⟨x, hx, rfl⟩ := h; simp; done)

theorem lastGiven_cons (n : Bytes) (f : Bytes × Option Bytes) (fs) :
    lastGiven n (f :: fs) = (lastGiven n fs).or (if f.1 = n then some f.2 else none) := by
  by_cases h : f.1 = n
  · simp only [lastGiven, List.filter_cons, h, decide_true, if_true, List.map_cons, List.getLast?_cons]
    cases ((fs.filter fun f => f.1 = n).map (·.2)).getLast? <;> rfl
  · simp [lastGiven, List.filter_cons, h]

/-- The flags are fine. -/
theorem applyFlags_isSome (ps) : ∀ (flags : List (Bytes × Option Bytes)), (∀ f ∈ flags, Shaped f) → ∀ c,
    ((applyFlags ps c flags).isSome ↔
      (∀ n v, (n, some v) ∈ flags → n ∈ boolFlags → v ∈ yesWords ++ noWords) ∧
      ((flags.map (·.1)).count b!"input" ≤ if c.input = [] then 1 else 0) ∧
      ((flags.map (·.1)).count b!"output" ≤ if c.output = [] then 1 else 0) ∧
      (∀ n v, (n, some v) ∈ flags → n ∈ [b!"input", b!"output", b!"include-selector", b!"exclude-selector"] → trimSpace v ≠ []) ∧
      (∀ n v, (n, some v) ∈ flags → n ∈ [b!"include-selector", b!"exclude-selector"] → (ps v).isSome)) := by
  intro flags
  induction flags with
  | nil => intro _ c; simp [applyFlags]
  | cons f fs ih =>
    intro hs c
    have hf := applyFlag_isSome ps c f (hs f (by simp))
    have split : ∀ (P : Bytes → Bytes → Prop), (∀ n v, (n, some v) ∈ f :: fs → P n v) ↔
        (∀ v, f.2 = some v → P f.1 v) ∧ ∀ n v, (n, some v) ∈ fs → P n v := by
      intro P
      constructor
      · intro h
        exact ⟨fun v hv => h f.1 v (by rw [← hv]; simp), fun n v hm => h n v (List.mem_cons_of_mem _ hm)⟩
      · intro ⟨h1, h2⟩ n v hm
        rcases List.mem_cons.mp hm with hm | hm
        · rw [← hm] at h1; exact h1 v rfl
        · exact h2 n v hm
    rw [applyFlags, split, split, split]
    cases ha : applyFlag ps c f with
    | none =>
      rw [ha] at hf
      simp only [Option.isSome_none, Bool.false_eq_true, false_iff] at hf
      simp only [Option.bind_none, Option.isSome_none, Bool.false_eq_true, false_iff]
      intro ⟨h1, h2, h3, h4, h5⟩
      refine hf ⟨fun hn v hv => h1.1 v hv hn, fun hn => ?_, fun hn => ?_, fun hn v hv => h4.1 v hv hn, fun hn v hv => h5.1 v hv hn⟩
      · rw [List.map_cons, hn, List.count_cons_self] at h2
        split at h2
        · assumption
        · omega
      · rw [List.map_cons, hn, List.count_cons_self] at h3
        split at h3
        · assumption
        · omega
    | some c' =>
      rw [ha] at hf
      simp only [Option.isSome_some, true_iff] at hf
      obtain ⟨e1, e2, _⟩ := applyFlag_effect ha
      obtain ⟨f1, f2, f3, f4, f5⟩ := hf
      rw [Option.bind_some, ih (fun f hm => hs f (List.mem_cons_of_mem _ hm)) c']
      have hc1 : ((fs.map (·.1)).count b!"input" ≤ if c'.input = [] then 1 else 0) ↔
          (((f :: fs).map (·.1)).count b!"input" ≤ if c.input = [] then 1 else 0) := by
        rw [List.map_cons, List.count_cons]
        by_cases hn : f.1 = b!"input"
        · simp [e1, hn, f2 hn]
        · simp [e1, hn]
      have hc2 : ((fs.map (·.1)).count b!"output" ≤ if c'.output = [] then 1 else 0) ↔
          (((f :: fs).map (·.1)).count b!"output" ≤ if c.output = [] then 1 else 0) := by
        rw [List.map_cons, List.count_cons]
        by_cases hn : f.1 = b!"output"
        · simp [e2, hn, f3 hn]
        · simp [e2, hn]
      rw [hc1, hc2]
      constructor
      · intro ⟨h1, h2, h3, h4, h5⟩
        exact ⟨⟨fun v hv hn => f1 hn v hv, h1⟩, h2, h3, ⟨fun v hv hn => f4 hn v hv, h4⟩, fun v hv hn => f5 hn v hv, h5⟩
      · intro ⟨h1, h2, h3, h4, h5⟩
        exact ⟨h1.2, h2, h3, h4.2, h5.2⟩

theorem or_getD {α β : Type} (a b : Option α) (f : α → β) (d : β) : ((a.or b).map f).getD d = (a.map f).getD ((b.map f).getD d) := by
  cases a <;> rfl

/-- The fields after all flags. -/
theorem applyFlags_effect (ps) : ∀ (flags : List (Bytes × Option Bytes)) (c c' : Config), applyFlags ps c flags = some c' →
    let on := fun (v : Option Bytes) => decide (v.getD b!"true" ∈ yesWords)
    let tx := fun (v : Option Bytes) => v.getD []
    c'.overwrite = ((lastGiven b!"output-overwrite" flags).map on).getD c.overwrite ∧
    c'.table = ((lastGiven b!"plugin-table" flags).map on).getD c.table ∧
    c'.skipEmptyRows = ((lastGiven b!"opt-table-skip-empty-rows" flags).map on).getD c.skipEmptyRows ∧
    c'.headerPromotion = ((lastGiven b!"opt-table-header-promotion" flags).map on).getD c.headerPromotion ∧
    c'.presentationTables = ((lastGiven b!"opt-table-presentation-tables" flags).map on).getD c.presentationTables ∧
    c'.spanCellBehavior = ((lastGiven b!"opt-table-span-cell-behavior" flags).map tx).getD c.spanCellBehavior ∧
    c'.newlineBehavior = ((lastGiven b!"opt-table-newline-behavior" flags).map tx).getD c.newlineBehavior ∧
    c'.cellPaddingBehavior = ((lastGiven b!"opt-table-cell-padding-behavior" flags).map tx).getD c.cellPaddingBehavior ∧
    c'.strongDelimiter = ((lastGiven b!"opt-strong-delimiter" flags).map tx).getD c.strongDelimiter ∧
    ((∀ f ∈ flags, f.1 ∉ [b!"version", b!"v"]) → c'.version = c.version) := by
  intro flags
  induction flags with
  | nil => intro c c' h; simp only [applyFlags, Option.some.injEq] at h; subst h; simp [lastGiven]
  | cons f fs ih =>
    intro c c' h
    rw [applyFlags] at h
    obtain ⟨c1, h1, h2⟩ := Option.bind_eq_some_iff.mp h
    obtain ⟨i1, i2, i3, i4, i5, i6, i7, i8, i9, i10⟩ := ih c1 c' h2
    obtain ⟨_, _, e1, e2, e3, e4, e5, e6, e7, e8, e9, e10⟩ := applyFlag_effect h1
    have st : ∀ (n : Bytes) {β : Type} (g : Option Bytes → β) (d : β),
        ((if f.1 = n then some f.2 else none : Option (Option Bytes)).map g).getD d = if f.1 = n then g f.2 else d := by
      intro n β g d
      split <;> rfl
    intro on tx
    simp only [lastGiven_cons, or_getD, st]
    refine ⟨i1.trans (by rw [e1]), i2.trans (by rw [e2]), i3.trans (by rw [e3]), i4.trans (by rw [e4]), i5.trans (by rw [e5]),
      i6.trans (by rw [e6]), i7.trans (by rw [e7]), i8.trans (by rw [e8]), i9.trans (by rw [e10]), ?_⟩
    intro hf
    rw [i10 (fun f hm => hf f (List.mem_cons_of_mem _ hm)), e9, if_neg]
    have := hf f (by simp)
    simpa using this

theorem on_iff (n : Bytes) (flags) : ((lastGiven n flags).map fun v => decide (v.getD b!"true" ∈ yesWords)).getD false = true ↔ IsOn n flags := by
  rw [IsOn]
  cases lastGiven n flags with
  | none => simp
  | some v =>
    simp only [Option.map_some, Option.getD_some, decide_eq_true_eq, Option.some.injEq, exists_eq_left']
    cases v with
    | none => simp only [Option.getD_none, reduceCtorEq, false_implies, implies_true, iff_true]; decide
    | some w => simp

theorem text_iff (n : Bytes) (flags) : ((lastGiven n flags).map fun v => v.getD []).getD [] ≠ [] ↔ HasText n flags := by
  rw [HasText]
  cases lastGiven n flags with
  | none => simp
  | some v => cases v <;> simp

theorem checkTable_iff (ps) {flags c'} (h : applyFlags ps {} flags = some c') :
    checkTable c' = true ↔ ((∃ n ∈ [b!"opt-table-skip-empty-rows", b!"opt-table-header-promotion", b!"opt-table-presentation-tables"], IsOn n flags) ∨
    (∃ n ∈ [b!"opt-table-span-cell-behavior", b!"opt-table-newline-behavior", b!"opt-table-cell-padding-behavior"], HasText n flags) →
    IsOn b!"plugin-table" flags) := by
  obtain ⟨_, e2, e3, e4, e5, e6, e7, e8, _, _⟩ := applyFlags_effect ps flags {} c' h
  rw [← on_iff]
  simp only [List.mem_cons, List.not_mem_nil, or_false, exists_eq_or_imp, exists_eq_left, ← on_iff, ← text_iff]
  rw [checkTable, e2, e3, e4, e5, e6, e7, e8]
  simp only [Bool.or_eq_true, Bool.not_eq_true', Bool.or_eq_false_iff, decide_eq_true_eq, decide_eq_false_iff_not]
  grind

theorem parseFlags_iff (ps args) : (∃ c, parseFlags ps args = .ok c) ↔ ∃ flags rest, Reads args flags rest ∧ Valid (fun v => (ps v).isSome) flags := by
  constructor
  · intro ⟨c, h⟩
    rw [parseFlags] at h
    cases hp : parseArgs ps {} args with
    | error e => rw [hp] at h; cases h
    | ok c1 =>
      rw [hp] at h
      dsimp only at h
      split at h
      · rename_i hct
        obtain ⟨flags, rest, hr⟩ := reads_of_ok ps _ args (Nat.le_refl _) _ _ hp
        refine ⟨flags, rest, hr, ?_⟩
        rw [parseArgs_reads ps hr {} rfl] at hp
        cases ha : applyFlags ps {} flags with
        | none => rw [ha] at hp; cases hp
        | some c2 =>
          rw [ha] at hp
          simp only [Except.ok.injEq] at hp
          have h1 := (applyFlags_isSome ps flags (reads_shaped hr) {}).mp (by rw [ha]; rfl)
          obtain ⟨w, o1, o2, nb, sel⟩ := h1
          refine ⟨w, ?_, nb, sel, (checkTable_iff ps ha).mp ?_⟩
          · intro n hn
            simp only [List.mem_cons, List.not_mem_nil, or_false] at hn
            rcases hn with rfl | rfl
            · exact o1
            · exact o2
          · rw [← hp] at hct
            exact hct
      · cases h
  · intro ⟨flags, rest, hr, hv⟩
    rw [parseFlags, parseArgs_reads ps hr {} rfl]
    have h1 := (applyFlags_isSome ps flags (reads_shaped hr) {}).mpr
      ⟨hv.words, hv.once _ (by simp), hv.once _ (by simp), hv.notBlank, hv.selectors⟩
    obtain ⟨c2, ha⟩ := Option.isSome_iff_exists.mp h1
    rw [ha]
    dsimp only
    have : checkTable { c2 with args := rest } = true := (checkTable_iff ps ha).mpr hv.table
    rw [if_pos this]
    exact ⟨_, rfl⟩

/-- The effect of one flag on the other settings. -/
theorem applyFlag_effect2 {ps c} {f : Bytes × Option Bytes} {c'} (h : applyFlag ps c f = some c') :
    (c'.input = if f.1 = b!"input" then trimSpace (f.2.getD []) else c.input) ∧
    (c'.output = if f.1 = b!"output" then trimSpace (f.2.getD []) else c.output) ∧
    (c'.domain = if f.1 = b!"domain" then f.2.getD [] else c.domain) ∧
    (c'.strikethrough = if f.1 = b!"plugin-strikethrough" then decide (f.2.getD b!"true" ∈ yesWords) else c.strikethrough) ∧
    (c'.includeSel = c.includeSel ++ if f.1 = b!"include-selector" then (ps (f.2.getD [])).getD [] else []) ∧
    (c'.excludeSel = c.excludeSel ++ if f.1 = b!"exclude-selector" then (ps (f.2.getD [])).getD [] else []) := by
  obtain ⟨n, v⟩ := f
  simp only [applyFlag] at h
  split at h
  · rename_i set hs
    simp only [Option.map_eq_some_iff] at h
    obtain ⟨b, hb, rfl⟩ := h
    have hb : b = decide (v.getD b!"true" ∈ yesWords) := by
      cases b
      · symm; rw [decide_eq_false_iff_not, ← parseBool_true, hb]; simp
      · symm; rw [decide_eq_true_iff, ← parseBool_true, hb]
    subst hb
    have hn := bool_of_some hs
    simp only [boolFlags, List.mem_cons, List.not_mem_nil, or_false] at hn
    rcases hn with rfl | rfl | rfl | rfl | rfl | rfl | rfl | rfl <;>
      (simp [boolFlag?] at hs; subst hs; simp)
  · simp only [Option.bind_eq_some_iff] at h
    obtain ⟨set, hs, w, rfl, h⟩ := h
    have hn := value_of_some hs
    simp only [valueFlags, List.mem_cons, List.not_mem_nil, or_false] at hn
    rcases hn with rfl | rfl | rfl | rfl | rfl | rfl | rfl | rfl | rfl <;>
      (simp [valueFlag?] at hs; subst hs; simp [single, selector] at h) <;>
      first
        | (subst h; simp; done)
        | (obtain ⟨x, ⟨_, y, hy, rfl⟩, rfl⟩ := h; simp [hy]; done)
        | (obtain ⟨x, hx, rfl⟩ := h; obtain ⟨h1, h2, rfl⟩ := hx; simp [h1, h2]; done)

/-- The other settings after all flags. -/
theorem applyFlags_effect2 (ps) : ∀ (flags : List (Bytes × Option Bytes)) (c c' : Config), applyFlags ps c flags = some c' →
    let on := fun (v : Option Bytes) => decide (v.getD b!"true" ∈ yesWords)
    let tx := fun (v : Option Bytes) => v.getD []
    c'.input = ((lastGiven b!"input" flags).map fun v => trimSpace (tx v)).getD c.input ∧
    c'.output = ((lastGiven b!"output" flags).map fun v => trimSpace (tx v)).getD c.output ∧
    c'.domain = ((lastGiven b!"domain" flags).map tx).getD c.domain ∧
    c'.strikethrough = ((lastGiven b!"plugin-strikethrough" flags).map on).getD c.strikethrough ∧
    c'.includeSel = c.includeSel ++ (flags.filter fun f => f.1 = b!"include-selector").flatMap (fun f => (ps (tx f.2)).getD []) ∧
    c'.excludeSel = c.excludeSel ++ (flags.filter fun f => f.1 = b!"exclude-selector").flatMap (fun f => (ps (tx f.2)).getD []) := by
  intro flags
  induction flags with
  | nil => intro c c' h; simp only [applyFlags, Option.some.injEq] at h; subst h; simp [lastGiven]
  | cons f fs ih =>
    intro c c' h
    rw [applyFlags] at h
    obtain ⟨c1, h1, h2⟩ := Option.bind_eq_some_iff.mp h
    obtain ⟨i1, i2, i3, i4, i5, i6⟩ := ih c1 c' h2
    obtain ⟨e1, e2, e3, e4, e5, e6⟩ := applyFlag_effect2 h1
    have st : ∀ (n : Bytes) {β : Type} (g : Option Bytes → β) (d : β),
        ((if f.1 = n then some f.2 else none : Option (Option Bytes)).map g).getD d = if f.1 = n then g f.2 else d := by
      intro n β g d
      split <;> rfl
    have sl : ∀ (n : Bytes), ((f :: fs).filter fun f => f.1 = n).flatMap (fun f => (ps (f.2.getD [])).getD []) =
        (if f.1 = n then (ps (f.2.getD [])).getD [] else []) ++ (fs.filter fun f => f.1 = n).flatMap (fun f => (ps (f.2.getD [])).getD []) := by
      intro n
      by_cases hn : f.1 = n <;> simp [List.filter_cons, hn]
    intro on tx
    simp only [lastGiven_cons, or_getD, st]
    refine ⟨i1.trans (by rw [e1]), i2.trans (by rw [e2]), i3.trans (by rw [e3]), i4.trans (by rw [e4]), ?_, ?_⟩
    · rw [i5, e5, sl, List.append_assoc]
    · rw [i6, e6, sl, List.append_assoc]

/-- The configuration that is read. -/
theorem parseFlags_config {ps args flags rest c} (hr : Reads args flags rest) (h : parseFlags ps args = .ok c) :
    ∃ c2, applyFlags ps {} flags = some c2 ∧ c = { c2 with args := rest } := by
  rw [parseFlags, parseArgs_reads ps hr {} rfl] at h
  cases ha : applyFlags ps {} flags with
  | none => rw [ha] at h; cases h
  | some c2 =>
    rw [ha] at h
    dsimp only at h
    split at h
    · simp only [Except.ok.injEq] at h
      exact ⟨c2, rfl, h.symm⟩
    · cases h

theorem dash_inj {d d' x x' : Bytes} (hd : d ∈ [b!"-", b!"--"]) (hd' : d' ∈ [b!"-", b!"--"]) (hx : x.head? ≠ some 45) (hx' : x'.head? ≠ some 45)
    (h : d ++ x = d' ++ x') : x = x' := by
  simp only [List.mem_cons, List.not_mem_nil, or_false] at hd hd'
  rcases hd with rfl | rfl <;> rcases hd' with rfl | rfl
  · simpa using h
  · simp only [List.cons_append, List.nil_append, List.cons.injEq, true_and] at h
    exact absurd (by rw [h]; rfl) hx
  · simp only [List.cons_append, List.nil_append, List.cons.injEq, true_and] at h
    exact absurd (by rw [← h]; rfl) hx'
  · simpa using h

theorem eq_inj {n n' v v' : Bytes} (hn : 61 ∉ n) (hn' : 61 ∉ n') (h : n ++ 61 :: v = n' ++ 61 :: v') : n = n' ∧ v = v' := by
  induction n generalizing n' with
  | nil =>
    cases n' with
    | nil => simpa using h
    | cons a l => simp at h; exact absurd (by simp [h.1]) hn'
  | cons a l ih =>
    cases n' with
    | nil => simp at h; exact absurd (by simp [h.1]) hn
    | cons b l' =>
      simp only [List.cons_append, List.cons.injEq] at h
      obtain ⟨h1, h2⟩ := ih (fun hm => hn (List.mem_cons_of_mem _ hm)) (fun hm => hn' (List.mem_cons_of_mem _ hm)) h.2
      exact ⟨by rw [h.1, h1], h2⟩

theorem head_app {n v : Bytes} (hn : n ≠ []) : (n ++ v).head? = n.head? := by
  cases n with
  | nil => exact absurd rfl hn
  | cons => rfl

/-- A flag is no positional argument and not `--`. -/
theorem flag_shape {d n x : Bytes} (hd : d ∈ [b!"-", b!"--"]) (hn : n ∈ boolFlags ++ valueFlags) :
    ¬ ((d ++ (n ++ x)).length < 2 ∨ (d ++ (n ++ x)).head? ≠ some 45) ∧ d ++ (n ++ x) ≠ b!"--" := by
  obtain ⟨f1, f2, f3, f4⟩ := names_fine n hn
  cases n with
  | nil => exact absurd rfl f1
  | cons a l =>
    have ha : a ≠ 45 := fun h => f3 (by simp [h])
    simp only [List.mem_cons, List.not_mem_nil, or_false] at hd
    rcases hd with rfl | rfl <;> simp [ha]

theorem flags_disjoint : ∀ n ∈ valueFlags, n ∉ boolFlags := by decide +kernel

theorem reads_unique {args flags rest} (h : Reads args flags rest) : ∀ {flags' rest'}, Reads args flags' rest' → flags = flags' ∧ rest = rest' := by
  have hl : ∀ {n}, n ∈ boolFlags → n ∈ boolFlags ++ valueFlags := fun h => List.mem_append_left _ h
  have hrr : ∀ {n}, n ∈ valueFlags → n ∈ boolFlags ++ valueFlags := fun h => List.mem_append_right _ h
  induction h with
  | done => intro f' r' h'; cases h'; exact ⟨rfl, rfl⟩
  | dashes rest =>
    intro f' r' h'
    generalize ha : (b!"--" :: rest) = as at h'
    cases h' with
    | done => cases ha
    | dashes rest' => cases ha; exact ⟨rfl, rfl⟩
    | positional a r h =>
      simp only [List.cons.injEq] at ha
      obtain ⟨rfl, rfl⟩ := ha
      simp at h
    | @bool d n _ _ _ hd hn _ =>
      simp only [List.cons.injEq] at ha
      have := (flag_shape (x := []) hd (hl hn)).2
      rw [List.append_nil] at this
      exact absurd ha.1.symm this
    | @withValue d n v _ _ _ hd hn _ =>
      simp only [List.cons.injEq, List.append_assoc] at ha
      exact absurd ha.1.symm (flag_shape hd hn).2
    | @nextArg d n v _ _ _ hd hn _ =>
      simp only [List.cons.injEq] at ha
      have := (flag_shape (x := []) hd (hrr hn)).2
      rw [List.append_nil] at this
      exact absurd ha.1.symm this
  | positional a rest h =>
    intro f' r' h'
    generalize ha : a :: rest = as at h'
    cases h' with
    | done => cases ha
    | dashes rest' =>
      cases ha
      simp at h
    | positional a r h => cases ha; exact ⟨rfl, rfl⟩
    | @bool d n _ _ _ hd hn _ =>
      simp only [List.cons.injEq] at ha
      rw [ha.1] at h
      have := (flag_shape (x := []) hd (hl hn)).1
      rw [List.append_nil] at this
      exact absurd h this
    | @withValue d n v _ _ _ hd hn _ =>
      simp only [List.cons.injEq, List.append_assoc] at ha
      rw [ha.1] at h
      exact absurd h (flag_shape hd hn).1
    | @nextArg d n v _ _ _ hd hn _ =>
      simp only [List.cons.injEq] at ha
      rw [ha.1] at h
      have := (flag_shape (x := []) hd (hrr hn)).1
      rw [List.append_nil] at this
      exact absurd h this
  | @bool d n args flags rest hd hn h ih =>
    intro f' r' h'
    obtain ⟨f1, f2, f3, f4⟩ := names_fine n (hl hn)
    generalize ha : (d ++ n) :: args = as at h'
    cases h' with
    | done => cases ha
    | dashes rest' =>
      simp only [List.cons.injEq] at ha
      have := (flag_shape (x := []) hd (hl hn)).2
      rw [List.append_nil] at this
      exact absurd ha.1 this
    | positional a r h =>
      simp only [List.cons.injEq] at ha
      rw [← ha.1] at h
      have := (flag_shape (x := []) hd (hl hn)).1
      rw [List.append_nil] at this
      exact absurd h this
    | @bool d' n' _ _ _ hd' hn' h' =>
      simp only [List.cons.injEq] at ha
      obtain ⟨f1', f2', f3', f4'⟩ := names_fine n' (hl hn')
      have hnn := dash_inj hd hd' f3 f3' ha.1
      obtain ⟨_, rfl⟩ := ha
      obtain ⟨rfl, rfl⟩ := ih h'
      rw [hnn]; exact ⟨rfl, rfl⟩
    | @withValue d' n' v _ _ _ hd' hn' h' =>
      simp only [List.cons.injEq, List.append_assoc] at ha
      obtain ⟨f1', f2', f3', f4'⟩ := names_fine n' hn'
      have hnn := dash_inj hd hd' f3 (by rw [head_app f1']; exact f3') ha.1
      rw [hnn] at f2
      exact absurd (by simp) f2
    | @nextArg d' n' v _ _ _ hd' hn' h' =>
      simp only [List.cons.injEq] at ha
      obtain ⟨f1', f2', f3', f4'⟩ := names_fine n' (hrr hn')
      have hnn := dash_inj hd hd' f3 f3' ha.1
      exact absurd (hnn ▸ hn) (flags_disjoint n' hn')
  | @withValue d n v args flags rest hd hn h ih =>
    intro f' r' h'
    obtain ⟨f1, f2, f3, f4⟩ := names_fine n hn
    generalize ha : (d ++ n ++ b!"=" ++ v) :: args = as at h'
    simp only [List.append_assoc] at ha
    cases h' with
    | done => cases ha
    | dashes rest' =>
      simp only [List.cons.injEq] at ha
      exact absurd ha.1 (flag_shape hd hn).2
    | positional a r h =>
      simp only [List.cons.injEq] at ha
      rw [← ha.1] at h
      exact absurd h (flag_shape hd hn).1
    | @bool d' n' _ _ _ hd' hn' h' =>
      simp only [List.cons.injEq] at ha
      obtain ⟨f1', f2', f3', f4'⟩ := names_fine n' (hl hn')
      have hnn := dash_inj hd hd' (by rw [head_app f1]; exact f3) f3' ha.1
      rw [← hnn] at f2'
      exact absurd (by simp) f2'
    | @withValue d' n' v' _ _ _ hd' hn' h' =>
      simp only [List.cons.injEq, List.append_assoc] at ha
      obtain ⟨f1', f2', f3', f4'⟩ := names_fine n' hn'
      have hnn := dash_inj hd hd' (by rw [head_app f1]; exact f3) (by rw [head_app f1']; exact f3') ha.1
      obtain ⟨rfl, rfl⟩ := eq_inj f2 f2' hnn
      obtain ⟨_, rfl⟩ := ha
      obtain ⟨rfl, rfl⟩ := ih h'
      exact ⟨rfl, rfl⟩
    | @nextArg d' n' v' _ _ _ hd' hn' h' =>
      simp only [List.cons.injEq] at ha
      obtain ⟨f1', f2', f3', f4'⟩ := names_fine n' (hrr hn')
      have hnn := dash_inj hd hd' (by rw [head_app f1]; exact f3) f3' ha.1
      rw [← hnn] at f2'
      exact absurd (by simp) f2'
  | @nextArg d n v args flags rest hd hn h ih =>
    intro f' r' h'
    obtain ⟨f1, f2, f3, f4⟩ := names_fine n (hrr hn)
    generalize ha : (d ++ n) :: v :: args = as at h'
    cases h' with
    | done => cases ha
    | dashes rest' =>
      simp only [List.cons.injEq] at ha
      have := (flag_shape (x := []) hd (hrr hn)).2
      rw [List.append_nil] at this
      exact absurd ha.1 this
    | positional a r h =>
      simp only [List.cons.injEq] at ha
      rw [← ha.1] at h
      have := (flag_shape (x := []) hd (hrr hn)).1
      rw [List.append_nil] at this
      exact absurd h this
    | @bool d' n' _ _ _ hd' hn' h' =>
      simp only [List.cons.injEq] at ha
      obtain ⟨f1', f2', f3', f4'⟩ := names_fine n' (hl hn')
      have hnn := dash_inj hd hd' f3 f3' ha.1
      exact absurd (hnn ▸ hn') (flags_disjoint n hn)
    | @withValue d' n' v _ _ _ hd' hn' h' =>
      simp only [List.cons.injEq, List.append_assoc] at ha
      obtain ⟨f1', f2', f3', f4'⟩ := names_fine n' hn'
      have hnn := dash_inj hd hd' f3 (by rw [head_app f1']; exact f3') ha.1
      rw [hnn] at f2
      exact absurd (by simp) f2
    | @nextArg d' n' v' _ _ _ hd' hn' h' =>
      simp only [List.cons.injEq] at ha
      obtain ⟨f1', f2', f3', f4'⟩ := names_fine n' (hrr hn')
      have hnn := dash_inj hd hd' f3 f3' ha.1
      obtain ⟨_, rfl, rfl⟩ := ha
      obtain ⟨rfl, rfl⟩ := ih h'
      rw [hnn]; exact ⟨rfl, rfl⟩

end Verif.Cli
