import Verif.Proofs.PageHeading
import Verif.Proofs.Lists

/-!
# Pieces of text that the clean-up of newlines leaves alone

`danger` counts how far a text is into white space that `TrimConsecutiveNewlines` or `TrimUnnecessaryHardLineBreaks` would
change.  A `Solid` piece has none of it, not even with the lines of its code blocks indented.  `Laid` says that a text consists of
pieces with newlines around them.
-/
namespace Verif.Page

open Verif Verif.Escape Verif.Spec Verif.Commonmark Verif.TextUtils

/-- 0 behind a visible byte; a newline adds one, a space gives at least one; three is too much. -/
def danger : Nat → Bytes → Option Nat
  | d, [] => some d
  | d, b :: s => if b = 10 then (if d < 2 then danger (d + 1) s else none) else if b = 32 then danger (max d 1) s else danger 0 s

theorem danger_append : ∀ (a : Bytes) (d : Nat) (b : Bytes), danger d (a ++ b) = (danger d a).bind (danger · b) := by
  intro a
  induction a with
  | nil => intro d b; rfl
  | cons x a ih =>
    intro d b
    rw [List.cons_append, danger, danger]
    split
    · split
      · exact ih _ _
      · rfl
    · split <;> exact ih _ _

theorem danger_mono : ∀ (s : Bytes) (d e f : Nat), d ≤ e → danger e s = some f → ∃ g, g ≤ f ∧ danger d s = some g := by
  intro s
  induction s with
  | nil => intro d e f h he; rw [danger, Option.some.injEq] at he; exact ⟨d, by omega, rfl⟩
  | cons x s ih =>
    intro d e f h he
    rw [danger] at he ⊢
    split at he
    · rename_i hx
      split at he
      · rw [if_pos hx, if_pos (by omega)]; exact ih _ _ _ (by omega) he
      · cases he
    · rename_i hx
      rw [if_neg hx]
      split at he
      · rename_i hy; rw [if_pos hy]; exact ih _ _ _ (by omega) he
      · rename_i hy; rw [if_neg hy]; exact ih _ _ _ (Nat.le_refl _) he

theorem danger_spaces (k d : Nat) (h : 1 ≤ d) (s : Bytes) : danger d (List.replicate k 32 ++ s) = danger d s := by
  induction k with
  | zero => rfl
  | succ k ih => rw [List.replicate_succ, List.cons_append, danger, if_neg (by decide), if_pos rfl, Nat.max_eq_left h, ih]

/-- The text with the newlines of code blocks as spaces. -/
def soft (s : Bytes) : Bytes := replaceAll codeNewline [32] s

theorem soft_cut {v : UInt8} (hv : v ∉ codeNewline) (a b : Bytes) : soft (a ++ v :: b) = soft a ++ v :: soft b :=
  replaceAll_cut [32] hv (by decide) a b

theorem soft_nil : soft [] = [] := replaceAll_nil _ _

theorem soft_id {s : Bytes} (h : ¬ codeNewline <:+: s) : soft s = s := replaceAll_id h

theorem soft_code (s : Bytes) : soft (codeNewline ++ s) = 32 :: soft s := by
  rw [soft, replaceAll_match _ _ _ (by decide)]; rfl

theorem soft_other {b : UInt8} {s : Bytes} (h : ¬ codeNewline <+: b :: s) : soft (b :: s) = b :: soft s := replaceAll_nomatch h

theorem soft_v {v : UInt8} (hv : v ∉ codeNewline) (b : Bytes) : soft (v :: b) = v :: soft b := by
  have := soft_cut hv [] b
  rwa [soft_nil] at this

theorem soft_spaces (k : Nat) (b : Bytes) : soft (List.replicate k 32 ++ b) = List.replicate k 32 ++ soft b := by
  induction k with
  | zero => rfl
  | succ k ih => rw [List.replicate_succ, List.cons_append, soft_v (by decide), ih, List.cons_append]

theorem danger_soft : ∀ (s : Bytes) (d f : Nat), danger d (soft s) = some f → ∃ g, g ≤ f ∧ danger d s = some g := by
  refine replaceAll_induct (old := codeNewline) (by decide) ?_ ?_ ?_
  · intro d f h; rw [soft_nil] at h; exact ⟨f, Nat.le_refl _, h⟩
  · intro s ih d f h
    rw [soft_code, danger, if_neg (by decide), if_pos rfl] at h
    obtain ⟨g, hg, h⟩ := ih _ _ h
    obtain ⟨g', hg', h'⟩ := danger_mono _ 0 _ _ (by omega) h
    refine ⟨g', by omega, ?_⟩
    rw [show codeNewline ++ s = 239 :: 128 :: 130 :: s from rfl]
    simp only [danger]
    exact h'
  · intro b s hb ih d f h
    rw [soft_other hb] at h
    rw [danger] at h ⊢
    split
    · rename_i h1
      rw [if_pos h1] at h
      split
      · rename_i h2; rw [if_pos h2] at h; exact ih _ _ h
      · rename_i h2; rw [if_neg h2] at h; cases h
    · rename_i h1
      rw [if_neg h1] at h
      split
      · rename_i h2; rw [if_pos h2] at h; exact ih _ _ h
      · rename_i h2; rw [if_neg h2] at h; exact ih _ _ h

/-- Indentation changes nothing. -/
theorem danger_multi (k : Nat) : ∀ (s : Bytes) (d : Nat), danger d (soft (multiLineListItem s k)) = danger d (soft s) := by
  refine replaceAll_induct (old := codeNewline) (by decide) ?_ ?_ ?_
  · intro d; simp [multiLineListItem, splitOn, multiLineListItemGo, replaceAll_nil]
  · intro s ih d
    rw [multi_code, soft_code, soft_spaces, soft_code]
    simp only [danger]
    rw [if_neg (by decide), if_pos True.intro, danger_spaces _ _ (by omega), ih]
    simp
  · intro b s hp ih d
    by_cases hb : b = 10
    · subst hb
      rw [multi_nl, soft_v (by decide), soft_spaces, soft_v (by decide)]
      simp only [danger, if_true]
      rw [danger_spaces _ _ (by omega), ih]
    · rw [multi_other k s hb hp, soft_other hp, soft_other]
      · simp only [danger, ih]
      · intro h
        apply hp
        rw [codeNewline, List.cons_prefix_cons] at h ⊢
        exact ⟨h.1, multi_prefix k s h.2⟩

/-- A piece of text: trimmed, not empty, and without white space that is cleaned up. -/
structure Solid (s : Bytes) : Prop where
  ne : s ≠ []
  leading : NoLeadingWhitespace s
  trailing : NoTrailingWhitespace s
  safe : ∀ d, d ≤ 2 → danger d (soft s) = some 0
  code : ¬ codeNewline <:+ s

theorem ws_nl_only : ∀ w ∈ whitespace, 10 ∈ w → w = [10] := by decide

theorem leading_append {p : Bytes} (hne : p ≠ []) (h : NoLeadingWhitespace p) (t : Bytes) : NoLeadingWhitespace (p ++ 10 :: t) := by
  intro w hw hp
  by_cases h10 : 10 ∈ w
  · rw [ws_nl_only w hw h10] at hp
    cases p with
    | nil => exact hne rfl
    | cons b p =>
      rw [List.cons_append, List.cons_prefix_cons] at hp
      refine h [10] (by decide) ?_
      rw [← hp.1]; exact ⟨p, rfl⟩
  · exact h w hw (prefix_of_not_mem h10 hp)

theorem trailing_append {p : Bytes} (hne : p ≠ []) (h : NoTrailingWhitespace p) (t : Bytes) : NoTrailingWhitespace (t ++ 10 :: p) := by
  intro w hw hp
  by_cases h10 : 10 ∈ w
  · rw [ws_nl_only w hw h10] at hp
    obtain ⟨z, e⟩ := hp
    have hl : (t ++ 10 :: p).getLast? = some 10 := by rw [← e]; simp
    rw [List.getLast?_append, List.getLast?_cons_of_ne_nil hne, List.getLast?_eq_some_getLast hne, Option.some_or, ← List.getLast?_eq_some_getLast hne] at hl
    obtain ⟨p', rfl⟩ := getLast_concat_of hl
    exact h [10] (by decide) ⟨p', rfl⟩
  · obtain ⟨z, e⟩ := hp
    refine h w hw ?_
    rcases List.append_eq_append_iff.1 e with ⟨x, e1, e2⟩ | ⟨x, e1, e2⟩
    · rw [e2] at h10; simp at h10
    · cases x with
      | nil => rw [List.nil_append] at e2; rw [← e2] at h10; simp at h10
      | cons y x => 
        rw [List.cons_append, List.cons.injEq] at e2
        exact ⟨x, e2.2.symm⟩

theorem suffix_cut {v : UInt8} {w t p : Bytes} (hv : v ∉ w) (h : w <:+ t ++ v :: p) : w <:+ p := by
  obtain ⟨z, e⟩ := h
  rcases List.append_eq_append_iff.1 e with ⟨x, e1, e2⟩ | ⟨x, e1, e2⟩
  · rw [e2] at hv; simp at hv
  · cases x with
    | nil => rw [List.nil_append] at e2; rw [← e2] at hv; simp at hv
    | cons y x =>
      rw [List.cons_append, List.cons.injEq] at e2
      exact ⟨x, e2.2.symm⟩

theorem danger_line {B : Nat} (hB : 1 ≤ B) : ∀ (s : Bytes) (d : Nat), 10 ∉ s → d ≤ B → ∃ g, g ≤ B ∧ danger d s = some g := by
  intro s
  induction s with
  | nil => intro d _ hd; exact ⟨d, hd, rfl⟩
  | cons b s ih =>
    intro d h hd
    rw [List.mem_cons, not_or] at h
    rw [danger, if_neg (fun e => h.1 e.symm)]
    split
    · exact ih _ h.2 (by omega)
    · exact ih _ h.2 (by omega)

theorem danger_last {s : Bytes} {d : Nat} (h : 10 ∉ s) (hd : d ≤ 2) {c : UInt8} (h1 : c ≠ 10) (h2 : c ≠ 32) :
    danger d (s ++ [c]) = some 0 := by
  obtain ⟨g, -, e⟩ := danger_line (by omega) s d h hd
  rw [danger_append, e]
  simp [danger, h1, h2]

theorem last_split {s : Bytes} (hne : s ≠ []) (h : NoTrailingWhitespace s) : ∃ s' c, s = s' ++ [c] ∧ c ≠ 10 ∧ c ≠ 32 := by
  refine ⟨s.dropLast, s.getLast hne, (List.dropLast_concat_getLast hne).symm, ?_, ?_⟩
  all_goals
    intro e
    have : s = s.dropLast ++ [s.getLast hne] := (List.dropLast_concat_getLast hne).symm
    rw [e] at this
  · exact h [10] (by decide) ⟨_, this.symm⟩
  · exact h [32] (by decide) ⟨_, this.symm⟩

/-- A line without white space around it. -/
theorem solid_line {s : Bytes} (hne : s ≠ []) (hl : NoLeadingWhitespace s) (ht : NoTrailingWhitespace s) (h10 : 10 ∉ s)
    (hc : ¬ codeNewline <:+: s) : Solid s := by
  refine ⟨hne, hl, ht, fun d hd => ?_, fun h => hc h.isInfix⟩
  rw [soft_id hc]
  obtain ⟨s', c, rfl, h1, h2⟩ := last_split hne ht
  exact danger_last (fun h => h10 (by simp [h])) hd h1 h2

/-- Two pieces with newlines between. -/
theorem Solid.join {p q : Bytes} (hp : Solid p) (hq : Solid q) : Solid (p ++ 10 :: 10 :: q) := by
  refine ⟨by simp, leading_append hp.ne hp.leading _, ?_, fun d hd => ?_, fun h => hq.code (suffix_cut (v := 10) (t := p ++ [10]) (by decide) (by simpa using h))⟩
  · have := trailing_append hq.ne hq.trailing (p ++ [10])
    simpa using this
  · rw [soft_cut (by decide), soft_v (by decide), danger_append, hp.safe d hd]
    exact hq.safe 2 (by omega)

theorem danger_newlines : ∀ (p : Bytes) (k : Nat) (buf t : Bytes) (d f : Nat), k ≤ d → danger d p = some f → p ≠ [] →
    p.getLast? ≠ some 10 → p.getLast? ≠ some 32 → trimNewlinesGo k buf (p ++ t) = buf ++ p ++ trimNewlinesGo 0 [] t := by
  intro p
  induction p with
  | nil => intro _ _ _ _ _ _ _ h; exact absurd rfl h
  | cons b p ih =>
    intro k buf t d f hk hd hne h10 h32
    rw [danger] at hd
    rw [List.cons_append, trimNewlinesGo]
    by_cases hp : p = []
    · subst hp
      rw [if_neg (by simpa using h10), if_neg (by simpa using h32)]
      simp
    · rw [List.getLast?_cons_of_ne_nil hp] at h10 h32
      split
      · rename_i hb
        rw [if_pos hb] at hd
        split at hd
        · rw [if_pos (by omega), ih _ _ _ _ _ (by omega) hd hp h10 h32, hb]; simp
        · cases hd
      · rename_i hb
        rw [if_neg hb] at hd
        split
        · rename_i hs
          rw [if_pos hs] at hd
          rw [ih _ _ _ _ _ (by omega) hd hp h10 h32, hs]; simp
        · rename_i hs
          rw [if_neg hs] at hd
          rw [ih _ _ _ _ _ (Nat.le_refl _) hd hp h10 h32]; simp

theorem Solid.head {s : Bytes} (h : Solid s) : ∃ b s', s = b :: s' ∧ b ≠ 10 ∧ b ≠ 32 := by
  cases s with
  | nil => exact absurd rfl h.ne
  | cons b s =>
    refine ⟨b, s, rfl, ?_, ?_⟩
    · rintro rfl; exact h.leading [10] (by decide) ⟨s, rfl⟩
    · rintro rfl; exact h.leading [32] (by decide) ⟨s, rfl⟩

theorem Solid.newlines {p : Bytes} (h : Solid p) (k : Nat) (t : Bytes) :
    trimNewlinesGo k [] (p ++ t) = p ++ trimNewlinesGo 0 [] t := by
  obtain ⟨b, p', rfl, h1, h2⟩ := h.head
  obtain ⟨s', c, e, h3, h4⟩ := last_split h.ne h.trailing
  obtain ⟨g, -, hg⟩ := danger_soft _ _ _ (h.safe 0 (by omega))
  have hk : ∀ k, trimNewlinesGo k [] (b :: p' ++ t) = trimNewlinesGo 0 [] (b :: p' ++ t) := by
    intro k
    rw [List.cons_append, trimNewlinesGo, trimNewlinesGo, if_neg h1, if_neg h2, if_neg h1, if_neg h2]
  rw [hk, danger_newlines _ _ _ _ _ _ (Nat.le_refl _) hg h.ne]
  · rfl
  · rw [e]; simpa using h3
  · rw [e]; simpa using h4

theorem Solid.no_break {p : Bytes} (h : Solid p) (i : Nat) : ¬ (32 :: 10 :: List.replicate i 32 ++ [10]) <:+: p := by
  rintro ⟨x, y, e⟩
  obtain ⟨g, -, hg⟩ := danger_soft _ _ _ (h.safe 0 (by omega))
  rw [← e, List.append_assoc, danger_append] at hg
  cases hx : danger 0 x with
  | none => rw [hx] at hg; cases hg
  | some d =>
    rw [hx, Option.bind_some, List.cons_append, List.cons_append, List.cons_append, List.cons_append, danger, if_neg (by decide),
      if_pos rfl, danger, if_pos rfl] at hg
    split at hg
    · rename_i hd
      rw [List.append_assoc, danger_spaces _ _ (by omega), List.singleton_append, danger, if_pos rfl, if_neg (by omega)] at hg
      cases hg
    · cases hg

theorem Solid.breaks {p : Bytes} (h : Solid p) : trimUnnecessaryHardLineBreaks p = p := by
  have h0 : ¬ b!"  \n\n" <:+: p := fun hp => h.no_break 0 (List.IsInfix.trans ⟨[32], [], by decide⟩ hp)
  have h1 : ¬ b!"  \n  \n" <:+: p := fun hp => h.no_break 2 (List.IsInfix.trans ⟨[32], [], by decide⟩ hp)
  have h2 : ¬ b!"  \n \n" <:+: p := fun hp => h.no_break 1 (List.IsInfix.trans ⟨[32], [], by decide⟩ hp)
  rw [trimUnnecessaryHardLineBreaks]
  rw [replaceAll_id h0, replaceAll_id h1, replaceAll_id h2]

/-! ## Pieces with newlines around them -/

/-- Pieces with at least two newlines between. -/
inductive Body : List Bytes → Bytes → Prop
  | one (p : Bytes) : Body [p] p
  | cons (p : Bytes) (k : Nat) {ps : List Bytes} {s : Bytes} : Body ps s → Body (p :: ps) (p ++ (List.replicate (k + 2) 10 ++ s))

/-- Pieces with at least two newlines between, at least `a` before and at least `b` behind. -/
def Laid (a b : Nat) (ps : List Bytes) (s : Bytes) : Prop :=
  (ps = [] ∧ ∃ n, a ≤ n ∧ b ≤ n ∧ s = List.replicate n 10) ∨
  ∃ m n body, a ≤ m ∧ b ≤ n ∧ Body ps body ∧ s = List.replicate m 10 ++ body ++ List.replicate n 10

theorem Body.ne {ps : List Bytes} {s : Bytes} (h : Body ps s) : ps ≠ [] := by cases h <;> simp

theorem Body.append {ps qs : List Bytes} {s t : Bytes} (h : Body ps s) (h' : Body qs t) (k : Nat) :
    Body (ps ++ qs) (s ++ (List.replicate (k + 2) 10 ++ t)) := by
  induction h with
  | one p => exact .cons p k h'
  | cons p j _ ih =>
    have := Body.cons p j ih
    simpa using this

theorem Laid.empty (ps : List Bytes) (h : ps = []) : Laid 0 0 ps [] := .inl ⟨h, 0, Nat.le_refl _, Nat.le_refl _, rfl⟩

theorem Laid.one (p : Bytes) : Laid 0 0 [p] p := .inr ⟨0, 0, p, Nat.le_refl _, Nat.le_refl _, .one p, by simp⟩

theorem Laid.weaken {a b a' b' : Nat} {ps : List Bytes} {s : Bytes} (h : Laid a b ps s) (ha : a' ≤ a) (hb : b' ≤ b) : Laid a' b' ps s := by
  rcases h with ⟨h, n, h1, h2, e⟩ | ⟨m, n, body, h1, h2, h3, e⟩
  · exact .inl ⟨h, n, by omega, by omega, e⟩
  · exact .inr ⟨m, n, body, by omega, by omega, h3, e⟩

theorem Laid.wrap {a b : Nat} {ps : List Bytes} {s : Bytes} (h : Laid a b ps s) : Laid (a + 2) (b + 2) ps (b!"\n\n" ++ s ++ b!"\n\n") := by
  have e2 : b!"\n\n" = List.replicate 2 10 := rfl
  rcases h with ⟨h, n, h1, h2, rfl⟩ | ⟨m, n, body, h1, h2, h3, rfl⟩
  · refine .inl ⟨h, n + 4, by omega, by omega, ?_⟩
    rw [e2, List.append_assoc, List.replicate_append_replicate, List.replicate_append_replicate]
    congr 1; omega
  · refine .inr ⟨m + 2, n + 2, body, by omega, by omega, h3, ?_⟩
    rw [e2, Nat.add_comm m 2, ← List.replicate_append_replicate, ← List.replicate_append_replicate]
    simp

theorem Laid.append {a b c d : Nat} {ps qs : List Bytes} {s t : Bytes} (h : Laid a b ps s) (h' : Laid c d qs t)
    (hbc : ps = [] ∨ qs = [] ∨ 2 ≤ b + c) : Laid a d (ps ++ qs) (s ++ t) := by
  rcases h with ⟨rfl, n, h1, h2, rfl⟩ | ⟨m, n, body, h1, h2, h3, rfl⟩
  · rcases h' with ⟨rfl, n', h1', h2', rfl⟩ | ⟨m', n', body', h1', h2', h3', rfl⟩
    · exact .inl ⟨rfl, n + n', by omega, by omega, by rw [List.replicate_append_replicate]⟩
    · refine .inr ⟨n + m', n', body', by omega, by omega, h3', ?_⟩
      rw [← List.replicate_append_replicate]; simp only [List.append_assoc]
  · rcases h' with ⟨rfl, n', h1', h2', rfl⟩ | ⟨m', n', body', h1', h2', h3', rfl⟩
    · refine .inr ⟨m, n + n', body, by omega, by omega, by simpa using h3, ?_⟩
      rw [← List.replicate_append_replicate]; simp
    · have hk : 2 ≤ b + c := by
        rcases hbc with e | e | e
        · exact absurd e h3.ne
        · exact absurd e h3'.ne
        · exact e
      obtain ⟨k, ek⟩ : ∃ k, n + m' = k + 2 := ⟨n + m' - 2, by omega⟩
      refine .inr ⟨m, n', body ++ (List.replicate (k + 2) 10 ++ body'), by omega, by omega, h3.append h3' k, ?_⟩
      rw [← ek, ← List.replicate_append_replicate]; simp only [List.append_assoc]

/-- Pieces with an empty line between. -/
def glue : List Bytes → Bytes
  | [] => []
  | [p] => p
  | p :: q :: ps => p ++ 10 :: 10 :: glue (q :: ps)

theorem glue_cons (p : Bytes) {ps : List Bytes} (h : ps ≠ []) : glue (p :: ps) = p ++ 10 :: 10 :: glue ps := by
  cases ps with
  | nil => exact absurd rfl h
  | cons q ps => rfl

theorem glue_solid : ∀ {ps : List Bytes}, ps ≠ [] → (∀ p ∈ ps, Solid p) → Solid (glue ps)
  | [], h, _ => absurd rfl h
  | [p], _, h => h p (by simp)
  | p :: q :: ps, _, h => by
    rw [glue]
    exact (h p (by simp)).join (glue_solid (by simp) fun p' hp' => h p' (List.mem_cons_of_mem _ hp'))

theorem Body.leading {ps : List Bytes} {s : Bytes} (h : Body ps s) (hs : ∀ p ∈ ps, Solid p) : NoLeadingWhitespace s := by
  cases h with
  | one => exact (hs s (by simp)).leading
  | cons p k hb =>
    have hp := hs p (by simp)
    rw [List.replicate_succ, List.cons_append]
    exact leading_append hp.ne hp.leading _

theorem Body.trailing {ps : List Bytes} {s : Bytes} (h : Body ps s) (hs : ∀ p ∈ ps, Solid p) : NoTrailingWhitespace s ∧ s ≠ [] := by
  induction h with
  | one p => exact ⟨(hs p (by simp)).trailing, (hs p (by simp)).ne⟩
  | cons p k hb ih =>
    have := ih fun q hq => hs q (List.mem_cons_of_mem _ hq)
    refine ⟨?_, by simp [(hs p (by simp)).ne]⟩
    rw [List.replicate_succ', List.append_assoc, List.singleton_append, ← List.append_assoc]
    exact trailing_append this.2 this.1 _

theorem trimNewlines_nl : ∀ (n k : Nat) (s : Bytes), 2 ≤ k → ∃ k', 2 ≤ k' ∧ trimNewlinesGo k [] (List.replicate n 10 ++ s) = trimNewlinesGo k' [] s := by
  intro n
  induction n with
  | zero => intro k s h; exact ⟨k, h, rfl⟩
  | succ n ih =>
    intro k s h
    rw [List.replicate_succ, List.cons_append, trimNewlinesGo, if_pos rfl, if_neg (by omega)]
    exact ih _ _ (by omega)

theorem Body.newlines {ps : List Bytes} {s : Bytes} (h : Body ps s) (hs : ∀ p ∈ ps, Solid p) (k : Nat) : trimNewlinesGo k [] s = glue ps := by
  induction h generalizing k with
  | one p =>
    have := (hs p (by simp)).newlines k []
    rw [List.append_nil] at this
    rw [this]; simp [trimNewlinesGo, glue]
  | cons p j hb ih =>
    rw [(hs p (by simp)).newlines k, glue_cons _ hb.ne, List.replicate_succ, List.replicate_succ, List.cons_append, List.cons_append,
      trimNewlinesGo, if_pos rfl, if_pos (by omega), trimNewlinesGo, if_pos rfl, if_pos (by omega)]
    obtain ⟨k', -, e⟩ := trimNewlines_nl j 2 _ (Nat.le_refl _)
    rw [List.nil_append, List.nil_append, e, ih (fun q hq => hs q (List.mem_cons_of_mem _ hq))]

theorem allWhitespace_nl (n : Nat) : AllWhitespace (List.replicate n 10) := by
  induction n with
  | zero => exact Spec.AllWhitespace.nil
  | succ n ih =>
    rw [List.replicate_succ, ← List.singleton_append]
    exact (Spec.AllWhitespace.word (by decide)).append ih

theorem Laid.trim_nil {a b : Nat} {s : Bytes} (h : Laid a b [] s) : trimSpace s = [] := by
  rcases h with ⟨-, n, -, -, rfl⟩ | ⟨m, n, body, -, -, h3, -⟩
  · rw [trimSpace_nil_iff]; exact allWhitespace_nl n
  · exact absurd rfl h3.ne

/-- Trimming and cleaning up newlines. -/
theorem Laid.clean {a b : Nat} {ps : List Bytes} {s : Bytes} (h : Laid a b ps s) (hne : ps ≠ []) (hs : ∀ p ∈ ps, Solid p) :
    trimSpace s ≠ [] ∧ trimUnnecessaryHardLineBreaks (trimConsecutiveNewlines (trimSpace s)) = glue ps := by
  rcases h with ⟨rfl, -⟩ | ⟨m, n, body, -, -, h3, rfl⟩
  · exact absurd rfl hne
  · have ht := h3.trailing hs
    have e : trimSpace (List.replicate m 10 ++ body ++ List.replicate n 10) = body := by
      rw [trimSpace, List.append_assoc, trimLeft_ws (allWhitespace_nl m), trimLeft_eq, trimRight_ws (allWhitespace_nl n),
        trimRight_eq ht.1]
      cases n with
      | zero => simpa using h3.leading hs
      | succ n => rw [List.replicate_succ]; exact leading_append ht.2 (h3.leading hs) _
    rw [e]
    exact ⟨ht.2, by rw [trimConsecutiveNewlines, h3.newlines hs, (glue_solid hne hs).breaks]⟩

end Verif.Page
