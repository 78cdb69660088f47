import Verif.Model.Commonmark
import Verif.Proofs.Strings
import Verif.Proofs.Trim
/-!
# How much longer the functions on byte strings make their argument
-/

namespace Verif.Size
open Verif Verif.TextUtils Verif.Escape Verif.Commonmark

/-- The sum of weights of the bytes. -/
def wt (f : UInt8 → Nat) : Bytes → Nat
  | [] => 0
  | b :: s => f b + wt f s

/-- The weight of the bytes at which lines break: newlines, and the first byte of the marker for newlines of code. -/
def isBrk (b : UInt8) : Nat := if b = NL ∨ b = 239 then 1 else 0

/-- How many bytes there are at which lines may break. -/
def brk (s : Bytes) : Nat := wt isBrk s

variable {f g : UInt8 → Nat}

theorem wt_append (f : UInt8 → Nat) (a b : Bytes) : wt f (a ++ b) = wt f a + wt f b := by
  induction a with
  | nil => simp [wt]
  | cons x a ih => simp only [List.cons_append, wt, ih]; omega

theorem wt_one (s : Bytes) : wt (fun _ => 1) s = s.length := by
  induction s with
  | nil => rfl
  | cons x s ih => simp only [wt, ih, List.length_cons]; omega

theorem wt_sublist (f : UInt8 → Nat) {a b : Bytes} (h : a.Sublist b) : wt f a ≤ wt f b := by
  induction h with
  | slnil => exact Nat.le_refl _
  | cons x _ ih => simp only [wt]; omega
  | cons_cons x _ ih => simp only [wt]; omega

theorem wt_le_of_pointwise (h : ∀ b, f b ≤ g b) (s : Bytes) : wt f s ≤ wt g s := by
  induction s with
  | nil => exact Nat.le_refl _
  | cons x s ih => have := h x; simp only [wt]; omega

theorem wt_replicate (f : UInt8 → Nat) (n : Nat) (b : UInt8) : wt f (List.replicate n b) = n * f b := by
  induction n with
  | zero => simp [wt]
  | succ n ih => rw [List.replicate_succ, wt, ih, Nat.add_mul]; omega

theorem brk_le (s : Bytes) : brk s ≤ s.length := by
  rw [brk, ← wt_one s]
  refine wt_le_of_pointwise (fun b => ?_) s
  rw [isBrk]; split <;> omega

theorem brk_append (a b : Bytes) : brk (a ++ b) = brk a + brk b := wt_append _ _ _

theorem wt_mul (f : UInt8 → Nat) (k : Nat) (s : Bytes) : wt (fun b => k * f b) s = k * wt f s := by
  induction s with
  | nil => simp [wt]
  | cons x s ih => simp only [wt, ih, Nat.mul_add]

theorem wt_add (f g : UInt8 → Nat) (s : Bytes) : wt (fun b => f b + g b) s = wt f s + wt g s := by
  induction s with
  | nil => simp [wt]
  | cons x s ih => simp only [wt, ih]; omega

/-! ## Replacing -/

theorem wt_replaceAll {old new : Bytes} (hne : old ≠ []) (hfg : ∀ b, f b ≤ g b) (h : wt f new ≤ wt g old) (s : Bytes) :
    wt f (replaceAll old new s) ≤ wt g s := by
  refine replaceAll_induct hne (P := fun s => wt f (replaceAll old new s) ≤ wt g s) ?_ ?_ ?_ s
  · simp [wt]
  · intro s ih
    rw [replaceAll_match _ _ _ hne, wt_append, wt_append]; omega
  · intro b s hb ih
    rw [replaceAll_nomatch hb]
    have := hfg b
    simp only [wt]; omega

theorem replaceAll_le {old new : Bytes} (hne : old ≠ []) (h : wt f new ≤ wt f old) (s : Bytes) : wt f (replaceAll old new s) ≤ wt f s :=
  wt_replaceAll hne (fun _ => Nat.le_refl _) h s

theorem replaceAll_length_le {old new : Bytes} (hne : old ≠ []) (h : new.length ≤ old.length) (s : Bytes) :
    (replaceAll old new s).length ≤ s.length := by
  have := replaceAll_le (f := fun _ => 1) hne (by simpa [wt_one] using h) s
  simpa [wt_one] using this

theorem replaceAll_length_mul {old new : Bytes} (hne : old ≠ []) {k : Nat} (hk : 1 ≤ k) (h : new.length ≤ k) (s : Bytes) :
    (replaceAll old new s).length ≤ k * s.length := by
  have h1 : 1 ≤ old.length := by cases old with | nil => exact absurd rfl hne | cons => simp
  have := wt_replaceAll (f := fun _ => 1) (g := fun _ => k * 1) (old := old) (new := new) hne (fun _ => by omega)
    (by rw [wt_one, wt_mul, wt_one]; exact Nat.le_trans h (Nat.le_mul_of_pos_right k h1)) s
  rw [wt_one, wt_mul, wt_one] at this
  exact this

/-! ## Trimming -/

theorem trimGo_suffix (len : Bytes → Nat) : ∀ (s : Bytes) (k : Nat), trimGo len k s <:+ s
  | [], k => by cases k <;> exact List.suffix_refl _
  | b :: bs, k + 1 => (trimGo_suffix len bs k).trans (List.suffix_cons _ _)
  | b :: bs, 0 => by
    rw [trimGo.eq_def]
    simp only
    split
    · exact List.suffix_refl _
    · exact (trimGo_suffix len bs _).trans (List.suffix_cons _ _)

theorem trimLeft_suffix (s : Bytes) : trimLeft s <:+ s := trimGo_suffix _ s 0

theorem trimRight_prefix (s : Bytes) : trimRight s <+: s := by
  rw [trimRight, ← List.reverse_suffix, List.reverse_reverse]
  exact trimGo_suffix _ _ 0

theorem trimSpace_sublist (s : Bytes) : (trimSpace s).Sublist s := (trimRight_prefix _).sublist.trans (trimLeft_suffix s).sublist

theorem trimNewlinesGo_sublist : ∀ (s : Bytes) (n : Nat) (buf : Bytes), (trimNewlinesGo n buf s).Sublist (buf ++ s) := by
  intro s
  induction s with
  | nil => intro n buf; simp [trimNewlinesGo]
  | cons b s ih =>
    intro n buf
    rw [trimNewlinesGo]
    split
    · rename_i hb
      rw [hb]
      split
      · have := ih (n + 1) []
        simp only [List.nil_append] at this
        exact (List.Sublist.refl buf).append (this.cons_cons _)
      · have := ih (n + 1) []
        simp only [List.nil_append] at this
        exact (this.cons _).trans (List.sublist_append_right _ _)
    · split
      · rename_i hb
        have := ih n (buf ++ [SP])
        rw [hb]; simpa using this
      · have := ih 0 []
        simp only [List.nil_append] at this
        exact (List.Sublist.refl buf).append (this.cons_cons _)

theorem trimConsecutive_sublist (s : Bytes) : (trimConsecutiveNewlines s).Sublist s := by
  have := trimNewlinesGo_sublist s 0 []
  simpa [trimConsecutiveNewlines] using this

theorem wt_trimUnnecessary (f : UInt8 → Nat) (s : Bytes) : wt f (trimUnnecessaryHardLineBreaks s) ≤ wt f s := by
  rw [trimUnnecessaryHardLineBreaks]
  refine Nat.le_trans (replaceAll_le (by simp) (by simp only [wt]; omega) _) ?_
  refine Nat.le_trans (replaceAll_le (by simp) (by simp only [wt]; omega) _) ?_
  exact replaceAll_le (by simp) (by simp only [wt]; omega) _

theorem dropDouble_sublist : ∀ (s : Bytes) (n : Nat), (dropDoubleSpaces n s).Sublist s := by
  intro s
  induction s with
  | nil => intro n; exact List.Sublist.refl _
  | cons b s ih =>
    intro n
    rw [dropDoubleSpaces]
    split <;> split <;> first | exact (ih _).cons _ | exact (ih _).cons_cons _

/-! ## Un-escaping -/

theorem wt_applyChanges (h : f BS ≤ f MARK) : ∀ (s : Bytes) (chs : List Bool), wt f (applyChanges chs s) ≤ wt f s := by
  intro s
  induction s with
  | nil => intro chs; simp [applyChanges]
  | cons b s ih =>
    intro chs
    cases chs with
    | nil => simp [applyChanges]
    | cons ch chs =>
      have := ih chs
      rw [applyChanges]
      split
      · simp only [wt]; omega
      · rename_i hb
        have hb : b = MARK := by simpa using hb
        subst hb
        split <;> simp only [wt] <;> omega

theorem wt_unEscape (h : f BS ≤ f MARK) (m : Mode) (hs : List Handler) (s : Bytes) : wt f (unEscapeContent m hs s) ≤ wt f s := by
  cases m with
  | smart => exact wt_applyChanges h _ _
  | disabled => exact Nat.le_refl _

theorem unEscape_length (m : Mode) (hs : List Handler) (s : Bytes) : (unEscapeContent m hs s).length ≤ s.length := by
  have := wt_unEscape (f := fun _ => 1) (Nat.le_refl _) m hs s
  simpa [wt_one] using this

theorem unEscape_brk (m : Mode) (hs : List Handler) (s : Bytes) : brk (unEscapeContent m hs s) ≤ brk s :=
  wt_unEscape (by decide) m hs s

/-! ## Lines -/

/-- The sum of the weights of lines, each with its newline. -/
def lw (f : UInt8 → Nat) : List Bytes → Nat
  | [] => 0
  | l :: ls => wt f l + f NL + lw f ls

theorem wt_join (f : UInt8 → Nat) : ∀ ls : List Bytes, ls ≠ [] → wt f (joinWith NL ls) + f NL = lw f ls
  | [], h => absurd rfl h
  | [l], _ => by simp [joinWith, lw]
  | l :: l' :: ls, _ => by
    have ih := wt_join f (l' :: ls) (by simp)
    rw [joinWith, wt_append, wt]
    · rw [lw]; omega
    · simp

theorem wt_split (f : UInt8 → Nat) (s : Bytes) : lw f (splitOn NL s) = wt f s + f NL := by
  have := wt_join f _ (splitOn_nonempty NL s)
  rw [join_split] at this
  omega

theorem split_count (s : Bytes) : (splitOn NL s).length ≤ brk s + 1 := by
  have h : ∀ ls : List Bytes, ls.length ≤ lw isBrk ls := by
    intro ls
    induction ls with
    | nil => exact Nat.le_refl _
    | cons l ls ih =>
      have : isBrk NL = 1 := by decide
      simp only [lw, List.length_cons]; omega
  have := h (splitOn NL s)
  rw [wt_split] at this
  have h2 : isBrk NL = 1 := by decide
  rw [brk]; omega

theorem lw_map (f : UInt8 → Nat) (h : Bytes → Bytes) (k : Nat) (hk : ∀ l, wt f (h l) ≤ wt f l + k) : ∀ ls : List Bytes,
    lw f (ls.map h) ≤ lw f ls + k * ls.length
  | [] => by simp [lw]
  | l :: ls => by
    have := lw_map f h k hk ls
    have := hk l
    simp only [List.map_cons, lw, List.length_cons, Nat.mul_add]; omega

theorem surroundingSpaces_wt (f : UInt8 → Nat) (s : Bytes) : wt f (surroundingSpaces s).1 + wt f (surroundingSpaces s).2.1 + wt f (surroundingSpaces s).2.2 ≤ wt f s := by
  rw [surroundingSpaces]
  simp only
  obtain ⟨r, hr⟩ := trimRight_prefix s
  obtain ⟨l, hl⟩ := trimLeft_suffix (trimRight s)
  have h1 : List.drop (trimRight s).length s = r := by
    have h := List.drop_left (l₁ := trimRight s) (l₂ := r)
    rw [hr] at h; exact h
  have e : s = l ++ (trimLeft (trimRight s) ++ r) := by rw [← List.append_assoc, hl, hr]
  have h2 : List.take ((trimRight s).length - (trimLeft (trimRight s)).length) s = l := by
    have : (trimRight s).length - (trimLeft (trimRight s)).length = l.length := by
      have := congrArg List.length hl
      rw [List.length_append] at this; omega
    rw [this]
    have h := List.take_left (l₁ := l) (l₂ := trimLeft (trimRight s) ++ r)
    rw [← e] at h; exact h
  rw [h1, h2]
  have e' := congrArg (wt f) e
  rw [wt_append, wt_append] at e'
  omega

theorem delimiterForLine_wt (f : UInt8 → Nat) (d l : Bytes) : wt f (delimiterForLine d l) ≤ wt f l + 2 * wt f d := by
  have h := surroundingSpaces_wt f l
  rw [delimiterForLine]
  generalize surroundingSpaces l = p at *
  obtain ⟨a, b, c⟩ := p
  dsimp only at *
  split
  · rw [wt_append]; omega
  · simp only [wt_append]; omega

theorem delimited_wt (f : UInt8 → Nat) (d s : Bytes) : wt f (delimited d s) ≤ wt f s + 2 * wt f d * (brk s + 1) := by
  rw [delimited, delimiterForEveryLine]
  have h1 := wt_join f ((splitOn NL s).map (delimiterForLine d)) (by simp [splitOn_nonempty])
  have h2 := lw_map f (delimiterForLine d) (2 * wt f d) (delimiterForLine_wt f d) (splitOn NL s)
  have h3 := wt_split f s
  have h4 := Nat.mul_le_mul_left (2 * wt f d) (split_count s)
  omega

/-- No byte of the delimiter breaks lines. -/
def Unbroken (d : Bytes) : Prop := brk d = 0

theorem delimited_brk {d : Bytes} (hd : Unbroken d) (s : Bytes) : brk (delimited d s) ≤ brk s := by
  have := delimited_wt isBrk d s
  rw [show wt isBrk d = 0 from hd] at this
  simpa [brk] using this

theorem delimited_length (d s : Bytes) : (delimited d s).length ≤ s.length + 2 * d.length * (brk s + 1) := by
  have := delimited_wt (fun _ => 1) d s
  simpa [wt_one] using this

theorem escapeMultiLineGo_wt (f : UInt8 → Nat) (h : f SP ≤ f BS) : ∀ ls : List Bytes, wt f (escapeMultiLineGo ls) ≤ lw f ls + 2 * f BS * ls.length
  | [] => by simp [escapeMultiLineGo, lw, wt]
  | l :: ls => by
    have ih := escapeMultiLineGo_wt f h ls
    have hl := wt_sublist f (trimLeft_suffix l).sublist
    rw [escapeMultiLineGo]
    simp only [wt_append, lw, List.length_cons, Nat.mul_add]
    have : wt f (if (trimLeft l).length = 0 then b!"\\\n" else if ls = [] then trimLeft l else if b!"  ".isSuffixOf (trimLeft l) = true then trimLeft l ++ b!"\n" else trimLeft l ++ b!"  \n") ≤ wt f l + f NL + 2 * f BS := by
      split
      · simp only [wt]; omega
      · split
        · omega
        · split <;> simp only [wt_append, wt] <;> omega
    omega

theorem escapeMultiLine_wt (f : UInt8 → Nat) (h : f SP ≤ f BS) (s : Bytes) : wt f (escapeMultiLine s) ≤ wt f s + f NL + 2 * f BS * (brk s + 1) := by
  rw [escapeMultiLine]
  split
  · omega
  · have h1 := escapeMultiLineGo_wt f h (splitOn NL s)
    have h2 := wt_split f s
    have h3 := Nat.mul_le_mul_left (2 * f BS) (split_count s)
    omega

theorem escapeMultiLine_brk (s : Bytes) : brk (escapeMultiLine s) ≤ brk s + 1 := by
  have := escapeMultiLine_wt isBrk (by decide) s
  rw [show isBrk BS = 0 by decide, show isBrk NL = 1 by decide] at this
  simpa [brk] using this

theorem escapeMultiLine_length (s : Bytes) : (escapeMultiLine s).length ≤ s.length + 2 * brk s + 3 := by
  have := escapeMultiLine_wt (fun _ => 1) (Nat.le_refl _) s
  simp only [wt_one] at this; omega

theorem prefixLines_wt (f : UInt8 → Nat) (p s : Bytes) : wt f (prefixLines s p) ≤ wt f s + wt f p * (brk s + 1) := by
  have h : ∀ s, wt f (prefixLinesGo p s) ≤ wt f s + wt f p * brk s := by
    intro s
    induction s with
    | nil => simp [prefixLinesGo, wt]
    | cons b s ih =>
      have hb : brk (b :: s) = isBrk b + brk s := rfl
      rw [prefixLinesGo, hb, Nat.mul_add]
      split
      · rename_i hb
        have : isBrk b = 1 := by rw [hb]; decide
        rw [this]
        simp only [wt, wt_append]; omega
      · simp only [wt]; omega
  have := h s
  rw [prefixLines, wt_append, Nat.mul_add]; omega

/-! ## The renderers -/

/-- A function that adds a constant to the number of lines and to each line. -/
structure Grows (c : Nat) (h : Bytes → Bytes) : Prop where
  brk : ∀ s, brk (h s) ≤ brk s + c
  length : ∀ s, (h s).length ≤ s.length + c * (Size.brk s + 1)

theorem Grows.of_eq {h : Bytes → Bytes} {n m c : Nat} (hc : n + m ≤ c) (h1 : ∀ s, Size.brk (h s) ≤ Size.brk s + n)
    (h2 : ∀ s, (h s).length ≤ s.length + m * (Size.brk s + 1)) : Grows c h where
  brk := fun s => by have := h1 s; omega
  length := fun s => Nat.le_trans (h2 s) (Nat.add_le_add_left (Nat.mul_le_mul_right _ (by omega)) _)

theorem grows_delimited {d : Bytes} (hd : Unbroken d) {c : Nat} (hc : 2 * d.length ≤ c) : Grows c (delimited d) :=
  Grows.of_eq (n := 0) (m := 2 * d.length) (by omega) (fun s => delimited_brk hd s) (fun s => delimited_length d s)

theorem grows_blocks {c : Nat} (hc : 8 ≤ c) : Grows c fun s => b!"\n\n" ++ s ++ b!"\n\n" := by
  refine Grows.of_eq (n := 4) (m := 4) (by omega) (fun s => ?_) (fun s => ?_)
  · rw [brk_append, brk_append, show brk b!"\n\n" = 2 by decide]; omega
  · simp only [List.length_append, List.length_cons, List.length_nil]; omega

theorem grows_id {c : Nat} : Grows c fun s => s := ⟨fun s => by omega, fun s => by omega⟩

theorem trimmed_brk (s : Bytes) : brk (trimUnnecessaryHardLineBreaks (trimConsecutiveNewlines s)) ≤ brk s :=
  Nat.le_trans (wt_trimUnnecessary _ _) (wt_sublist _ (trimConsecutive_sublist s))

theorem trimmed_length (s : Bytes) : (trimUnnecessaryHardLineBreaks (trimConsecutiveNewlines s)).length ≤ s.length := by
  have := Nat.le_trans (wt_trimUnnecessary (fun _ => 1) (trimConsecutiveNewlines s)) (wt_sublist _ (trimConsecutive_sublist s))
  simpa [wt_one] using this

theorem trimSpace_brk (s : Bytes) : brk (trimSpace s) ≤ brk s := wt_sublist _ (trimSpace_sublist s)
theorem trimSpace_length (s : Bytes) : (trimSpace s).length ≤ s.length := (trimSpace_sublist s).length_le

theorem grows_blockquote {c : Nat} (hc : 10 ≤ c) : Grows c blockquote := by
  refine Grows.of_eq (n := 4) (m := 6) (by omega) (fun s => ?_) (fun s => ?_)
  · rw [blockquote]
    simp only
    split
    · simp [brk, wt]
    · have h1 := prefixLines_wt isBrk [62, SP] (trimUnnecessaryHardLineBreaks (trimConsecutiveNewlines (trimSpace s)))
      rw [show wt isBrk [62, SP] = 0 by decide, Nat.zero_mul] at h1
      have h2 := trimmed_brk (trimSpace s)
      have h3 := trimSpace_brk s
      rw [brk_append, brk_append, show brk b!"\n\n" = 2 by decide]
      simp only [brk] at *; omega
  · rw [blockquote]
    simp only
    split
    · simp
    · have h1 := prefixLines_wt (fun _ => 1) [62, SP] (trimUnnecessaryHardLineBreaks (trimConsecutiveNewlines (trimSpace s)))
      simp only [wt_one, List.length_cons, List.length_nil] at h1
      have h2 := trimmed_brk (trimSpace s)
      have h3 := trimSpace_brk s
      have h4 := trimmed_length (trimSpace s)
      have h5 := trimSpace_length s
      simp only [List.length_append, List.length_cons, List.length_nil]; omega

theorem escapePound_length {s t : Bytes} (h : escapePoundSignAtEnd s = some t) : t.length ≤ s.length + 1 := by
  rw [escapePoundSignAtEnd] at h
  have hl : s.reverse.length = s.length := List.length_reverse
  split at h
  · simp at h
  · rename_i c rev hr
    rw [hr] at hl
    split at h
    · cases h; omega
    · split at h
      · simp at h
      · split at h
        · cases h; omega
        · cases h
          simp only [List.length_reverse, List.length_cons] at *; omega
      · cases h; simp only [List.length_cons, List.length_nil] at *; omega

theorem atx_length (s : Bytes) : (atxContent s).length ≤ s.length := by
  rw [atxContent]
  refine Nat.le_trans (trimSpace_length _) ?_
  refine Nat.le_trans (dropDouble_sublist _ _).length_le ?_
  refine Nat.le_trans (replaceAll_length_le (by simp) (by simp) _) ?_
  exact replaceAll_length_le (by simp) (by simp) _

theorem atx_brk (s : Bytes) : brk (atxContent s) ≤ brk s := by
  rw [atxContent]
  refine Nat.le_trans (trimSpace_brk _) ?_
  refine Nat.le_trans (wt_sublist _ (dropDouble_sublist _ _)) ?_
  refine Nat.le_trans (replaceAll_le (f := isBrk) (by simp) (by decide) _) ?_
  exact replaceAll_le (f := isBrk) (by simp) (by decide) _

theorem escapePound_brk {s t : Bytes} (h : escapePoundSignAtEnd s = some t) : brk t ≤ brk s := by
  have hrev : ∀ s : Bytes, brk s.reverse = brk s := by
    intro s
    induction s with
    | nil => rfl
    | cons b s ih => rw [List.reverse_cons, brk_append, ih]; simp only [brk, wt]; omega
  have hl := hrev s
  rw [escapePoundSignAtEnd] at h
  split at h
  · simp at h
  · rename_i c rev hr
    rw [hr] at hl
    split at h
    · cases h; omega
    · split at h
      · simp at h
      · split at h
        · cases h; omega
        · cases h
          rw [hrev]
          simp only [brk, wt] at *
          rw [show isBrk BS = 0 by decide]; omega
      · cases h
        simp only [brk, wt] at *
        rw [show isBrk BS = 0 by decide]; omega

theorem headingLevel_le (n : Bytes) : headingLevel n ≤ 6 := by
  rw [headingLevel]
  repeat' split
  all_goals omega

theorem heading_atx {level : Nat} {setext : Bool} (hl : level ≤ 6) (hs : (setext && decide (level < 3)) = false) {s out : Bytes} (h : heading setext level s = some out) :
    brk out ≤ brk s + 4 ∧ out.length ≤ s.length + 12 := by
  rw [heading] at h
  split at h
  · cases h; simp [brk, wt]
  · rw [if_neg (by simpa using hs)] at h
    cases he : escapePoundSignAtEnd (atxContent s) with
    | none => rw [he] at h; simp at h
    | some t =>
      rw [he] at h
      cases h
      have h1 := escapePound_length he
      have h2 := escapePound_brk he
      have h3 := atx_length s
      have h4 := atx_brk s
      refine ⟨?_, ?_⟩
      · simp only [brk_append]
        rw [show brk b!"\n\n" = 2 by decide, show brk [SP] = 0 by decide]
        have : brk (List.replicate level 35) = 0 := by rw [brk, wt_replicate, show isBrk 35 = 0 by decide, Nat.mul_zero]
        omega
      · simp only [List.length_append, List.length_cons, List.length_nil, List.length_replicate]; omega

theorem runeCountGo_le : ∀ (s : Bytes) (k : Nat), runeCountGo k s ≤ s.length
  | [], k => by cases k <;> simp [runeCountGo]
  | b :: s, 0 => by
    have := runeCountGo_le s ((decodeRune (b :: s)).2 - 1)
    simp only [runeCountGo, List.length_cons]; omega
  | b :: s, k + 1 => by
    have := runeCountGo_le s k
    simp only [runeCountGo, List.length_cons]; omega

theorem runeCount_length (s : Bytes) : runeCount s ≤ s.length := runeCountGo_le s 0

theorem foldl_max_le (B : Nat) (h : Bytes → Nat) : ∀ (ls : List Bytes) (w : Nat), w ≤ B → (∀ l ∈ ls, h l ≤ B) →
    ls.foldl (fun w part => if h part > w then h part else w) w ≤ B
  | [], w, hw, _ => hw
  | l :: ls, w, hw, hl => by
    rw [List.foldl_cons]
    refine foldl_max_le B h ls _ ?_ fun x hx => hl x (by simp [hx])
    have := hl l (by simp)
    split <;> omega

theorem split_line_le (s : Bytes) : ∀ l ∈ splitOn NL s, l.length ≤ s.length := by
  have h : ∀ ls : List Bytes, ∀ l ∈ ls, wt (fun _ => 1) l + 1 ≤ lw (fun _ => 1) ls := by
    intro ls
    induction ls with
    | nil => simp
    | cons x ls ih =>
      intro l hl
      rcases List.mem_cons.1 hl with rfl | hl
      · simp only [lw]; omega
      · have := ih l hl; simp only [lw]; omega
  intro l hl
  have := h _ l hl
  rw [wt_split, wt_one, wt_one] at this
  omega

theorem underline_le (s : Bytes) : underlineWidth s 3 ≤ s.length + 3 := by
  rw [underlineWidth]
  have := foldl_max_le s.length visibleRunes (splitOn NL s) 0 (Nat.zero_le _) (fun l hl => by
    have h1 := split_line_le s l hl
    have h2 := runeCount_length l
    rw [visibleRunes]; omega)
  split <;> omega

theorem heading_setext {level : Nat} {s out : Bytes} (hl : level ≤ 6) (h : heading true level s = some out) :
    brk out ≤ brk s + 8 ∧ out.length ≤ 2 * s.length + 4 * brk s + 20 := by
  by_cases hs : level < 3
  · rw [heading] at h
    split at h
    · cases h; simp [brk, wt]
    · rw [if_pos (by simpa using hs)] at h
      cases h
      have h1 := escapeMultiLine_brk (trimConsecutiveNewlines s)
      have h2 := escapeMultiLine_length (trimConsecutiveNewlines s)
      have h3 : brk (trimConsecutiveNewlines s) ≤ brk s := wt_sublist _ (trimConsecutive_sublist s)
      have h4 := (trimConsecutive_sublist s).length_le
      have h5 := underline_le (escapeMultiLine (trimConsecutiveNewlines s))
      refine ⟨?_, ?_⟩
      · simp only [brk_append]
        rw [show brk b!"\n\n" = 2 by decide, show brk [NL] = 1 by decide]
        have : brk (setextUnderline level (underlineWidth (escapeMultiLine (trimConsecutiveNewlines s)) 3)) = 0 := by
          rw [setextUnderline, brk, wt_replicate]
          split
          · rw [show isBrk 61 = 0 by decide, Nat.mul_zero]
          · rw [show isBrk 45 = 0 by decide, Nat.mul_zero]
        omega
      · simp only [List.length_append, List.length_cons, List.length_nil, setextUnderline, List.length_replicate]; omega
  · have := heading_atx hl (by simpa using hs) h
    omega

end Verif.Size
