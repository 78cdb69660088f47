import Verif.Model.Commonmark
import Verif.Proofs.Trim
import Verif.Proofs.Strings
import Verif.Spec.Inline
/-!
# Lemmas about code fences and inline code
-/

set_option linter.unusedSimpArgs false

namespace Verif
open Verif.TextUtils Verif.Commonmark

theorem foldl_max_le (l : List Nat) : ∀ m : Nat, m ≤ l.foldl (fun m x => if x > m then x else m) m ∧
    ∀ x ∈ l, x ≤ l.foldl (fun m x => if x > m then x else m) m := by
  induction l with
  | nil => simp
  | cons v l ih =>
    intro m
    simp only [List.foldl_cons, List.mem_cons]
    obtain ⟨h1, h2⟩ := ih (if v > m then v else m)
    have hm : m ≤ (if v > m then v else m) ∧ v ≤ (if v > m then v else m) := by split <;> omega
    constructor
    · omega
    · rintro x (rfl | hx)
      · omega
      · exact h2 x hx

theorem le_findMax {l : List Nat} {x : Nat} (h : x ∈ l) : x ≤ findMax l := by
  cases l with
  | nil => simp at h
  | cons v l =>
    simp only [findMax]
    rcases List.mem_cons.1 h with rfl | h
    · exact (foldl_max_le l _).1
    · exact (foldl_max_le l _).2 x h

theorem findMax_mem {l : List Nat} (h : l ≠ []) : findMax l ∈ l := by
  have main : ∀ (l : List Nat) (m : Nat), l.foldl (fun m x => if x > m then x else m) m ∈ m :: l := by
    intro l
    induction l with
    | nil => simp
    | cons v l ih =>
      intro m
      simp only [List.foldl_cons]
      have := ih (if v > m then v else m)
      split at this <;> simp_all <;> grind
  cases l with
  | nil => exact absurd rfl h
  | cons v l => exact main l v

theorem replicate_infix_le {c : UInt8} {n k : Nat} {a b : Bytes}
    (h : List.replicate n c = a ++ List.replicate k c ++ b) : k ≤ n := by
  have := congrArg List.length h
  simp at this; omega

/-- Every run of `c` is at most as long as the maximum that the code computes. -/
theorem run_le_max (c : UInt8) : ∀ (s : Bytes) (t k : Nat) (a b : Bytes),
    List.replicate t c ++ s = a ++ List.replicate k c ++ b → k ≤ findMax (fenceRuns c t s) := by
  intro s
  induction s with
  | nil =>
    intro t k a b h
    simp only [List.append_nil] at h
    have := replicate_infix_le h
    simp only [fenceRuns]
    split
    · simpa [findMax] using this
    · simp_all
  | cons d s ih =>
    intro t k a b h
    simp only [fenceRuns]
    by_cases hd : d = c
    · rw [if_pos hd]
      apply ih (t + 1) k a b
      rw [← h, hd, List.replicate_succ']
      simp
    · rw [if_neg hd]
      have key : k ≤ t ∨ ∃ a' b', s = a' ++ List.replicate k c ++ b' := by
        rw [List.append_assoc] at h
        rcases List.append_eq_append_iff.1 h with ⟨x, hx, hy⟩ | ⟨x, hx, hy⟩
        · -- a = replicate t c ++ x, d :: s = x ++ (replicate k c ++ b)
          cases x with
          | nil =>
            cases k with
            | zero => left; omega
            | succ k => simp [List.replicate_succ] at hy; exact absurd hy.1 hd
          | cons e x =>
            simp at hy
            right
            exact ⟨x, b, by rw [hy.2]; simp⟩
        · rcases List.append_eq_append_iff.1 hy with ⟨y, hy1, hy2⟩ | ⟨y, hy1, hy2⟩
          · left
            have := congrArg List.length hx
            rw [hy1] at this
            simp at this
            omega
          · cases y with
            | nil =>
              left
              have := congrArg List.length hx
              have h2 := congrArg List.length hy1
              simp at this h2; omega
            | cons e y =>
              simp at hy2
              exfalso
              have : d ∈ List.replicate k c := by rw [hy1]; simp [hy2.1]
              exact hd (List.eq_of_mem_replicate this)
      rcases key with hk | ⟨a', b', hs⟩
      · by_cases ht : t = 0
        · omega
        · rw [if_pos ht]; exact Nat.le_trans hk (le_findMax (by simp))
      · have := ih 0 k a' b' (by simpa using hs)
        split
        · refine Nat.le_trans this ?_
          by_cases hne : fenceRuns c 0 s = []
          · simp [hne, findMax]
          · exact le_findMax (List.mem_cons_of_mem _ (findMax_mem hne))
        · exact this

theorem occurrences_longer (c : UInt8) (s : Bytes) :
    Spec.LongerThanRuns c (calculateCodeFenceOccurrences c s + 1) s := by
  intro k a b h
  have := run_le_max c s 0 k a b (by simpa using h)
  simp only [calculateCodeFenceOccurrences]; omega

theorem LongerThanRuns.infix {c n s t} (h : Spec.LongerThanRuns c n t) (hs : s <:+: t) :
    Spec.LongerThanRuns c n s := by
  intro k a b hk
  obtain ⟨x, y, hxy⟩ := hs
  apply h k (x ++ a) (b ++ y)
  rw [← hxy, hk]; simp

/-! ## Reading a code span -/

theorem findClose_run (n : Nat) : ∀ (m j : Nat) (acc rest : Bytes), j + m = n → rest.head? ≠ some 96 →
    Spec.findClose n j acc (List.replicate m 96 ++ rest) = some (((List.replicate m 96 ++ acc).drop n).reverse, rest) := by
  intro m
  induction m with
  | zero =>
    intro j acc rest hj hr
    simp at hj; subst hj
    cases rest with
    | nil => simp [Spec.findClose]
    | cons b rest =>
      have : b ≠ 96 := by simpa using hr
      simp [Spec.findClose, this]
  | succ m ih =>
    intro j acc rest hj hr
    simp only [List.replicate_succ, List.cons_append, Spec.findClose, if_true]
    rw [ih (j+1) (96 :: acc) rest (by omega) hr]
    congr 3
    rw [show List.replicate m (96 : UInt8) ++ 96 :: acc = 96 :: (List.replicate m 96 ++ acc) from ?_]
    rw [← List.singleton_append, ← List.append_assoc, ← List.replicate_succ']
    simp [List.replicate_succ]

theorem findClose_spec (n : Nat) : ∀ (s : Bytes) (k : Nat) (acc rest : Bytes),
    Spec.LongerThanRuns 96 n (List.replicate k 96 ++ s) → (s = [] → k = 0) → s.getLast? ≠ some 96 →
    rest.head? ≠ some 96 →
    Spec.findClose n k acc (s ++ (List.replicate n 96 ++ rest)) = some (acc.reverse ++ s, rest) := by
  intro s
  induction s with
  | nil =>
    intro k acc rest _ hk _ hr
    have := hk rfl
    subst this
    rw [List.nil_append, findClose_run n n 0 acc rest (by omega) hr]
    simp
  | cons b s ih =>
    intro k acc rest hl _ hg hr
    have hg' : s ≠ [] → s.getLast? ≠ some 96 := by
      intro hs; cases s with
      | nil => exact absurd rfl hs
      | cons c s => simpa using hg
    simp only [List.cons_append, Spec.findClose]
    by_cases hb : b = 96
    · subst hb
      rw [if_pos rfl]
      have hs : s ≠ [] := by rintro rfl; simp at hg
      rw [ih (k+1) (96 :: acc) rest ?_ (fun h => absurd h hs) (hg' hs) hr]
      · simp
      · rw [List.replicate_succ', List.append_assoc]; simpa using hl
    · rw [if_neg hb, if_neg]
      · by_cases hs : s = []
        · subst hs
          simp only [List.nil_append]
          rw [findClose_run n n 0 (b :: acc) rest (by omega) hr]
          simp
        · rw [ih 0 (b :: acc) rest ?_ (fun _ => rfl) (hg' hs) hr]
          · simp
          · refine LongerThanRuns.infix hl ?_
            exact ⟨List.replicate k 96 ++ [b], [], by simp⟩
      · have := hl k [] (b :: s) (by simp)
        omega

theorem takeWhile_replicate (n : Nat) (s : Bytes) (h : s.head? ≠ some 96) :
    (List.replicate n 96 ++ s).takeWhile (· == 96) = List.replicate n 96 ∧
    (List.replicate n 96 ++ s).dropWhile (· == 96) = s := by
  induction n with
  | zero =>
    cases s with
    | nil => simp
    | cons b s =>
      have : (b == 96) = false := by simpa using h
      simp [this]
  | succ n ih => simp [List.replicate_succ, ih]

theorem readCodeSpan_fence {n : Nat} (hn : 0 < n) {s rest : Bytes} (hl : Spec.LongerThanRuns 96 n s)
    (h1 : s ≠ []) (hh : s.head? ≠ some 96) (hg : s.getLast? ≠ some 96) (hr : rest.head? ≠ some 96) :
    Spec.readCodeSpan (List.replicate n 96 ++ s ++ List.replicate n 96 ++ rest) = some (Spec.stripCode s, rest) := by
  have hh' : (s ++ (List.replicate n 96 ++ rest)).head? ≠ some 96 := by
    cases s with
    | nil => exact absurd rfl h1
    | cons b s => simpa using hh
  obtain ⟨t1, t2⟩ := takeWhile_replicate n _ hh'
  simp only [Spec.readCodeSpan, List.append_assoc, t1, t2, List.length_replicate]
  rw [if_neg (by omega), findClose_spec n s 0 [] rest (by simpa using hl) (fun _ => rfl) hg hr]
  simp

/-! ## collapseInlineCodeContent -/

theorem dropDoubleSpaces_eq : ∀ (s : Bytes) (n : Nat),
    dropDoubleSpaces n s = Spec.squeeze.squeezeAfter (decide (1 ≤ n)) s := by
  intro s
  induction s with
  | nil => intro n; rfl
  | cons b s ih =>
    intro n
    simp only [dropDoubleSpaces, Spec.squeeze.squeezeAfter]
    by_cases hb : b = SP
    · subst hb
      by_cases hn : 1 ≤ n
      · simp only [if_true]; rw [if_pos (by omega), ih]
        simp [hn]
      · simp only [if_true]; rw [if_neg (by omega), ih]
        simp [hn]
    · have hb' : (b == 32) = false := by simpa using hb
      simp [hb, hb', ih]

theorem squeeze_eq (s : Bytes) : dropDoubleSpaces 0 s = Spec.squeeze s := by
  cases s with
  | nil => rfl
  | cons b s => rw [dropDoubleSpaces_eq]; simp [Spec.squeeze, Spec.squeeze.squeezeAfter]

theorem collapse_eq (s : Bytes) : collapseInlineCodeContent s =
    Spec.squeeze (trimSpace (s.map fun b => if b = NL ∨ b = 9 then SP else b)) := by
  simp only [collapseInlineCodeContent, squeeze_eq, replaceAll_one_map, List.map_map]
  congr 3
  funext b
  simp only [Function.comp]
  by_cases h : b = NL
  · simp [h]
  · simp [h]

theorem squeezeAfter_mem (p : Bool) (s : Bytes) : ∀ b ∈ Spec.squeeze.squeezeAfter p s, b ∈ s := by
  induction s generalizing p with
  | nil => simp [Spec.squeeze.squeezeAfter]
  | cons c s ih =>
    intro b hb
    simp only [Spec.squeeze.squeezeAfter] at hb
    split at hb
    · exact List.mem_cons_of_mem _ (ih _ b hb)
    · rcases List.mem_cons.1 hb with rfl | hb
      · simp
      · exact List.mem_cons_of_mem _ (ih _ b hb)

theorem squeeze_mem (s : Bytes) : ∀ b ∈ Spec.squeeze s, b ∈ s := by
  cases s with
  | nil => simp [Spec.squeeze]
  | cons c s =>
    intro b hb
    simp only [Spec.squeeze, List.mem_cons] at hb
    rcases hb with rfl | hb
    · simp
    · exact List.mem_cons_of_mem _ (squeezeAfter_mem _ _ b hb)

theorem squeezeAfter_getLast (p : Bool) (s : Bytes) (h : s.getLast? ≠ some 32) :
    (Spec.squeeze.squeezeAfter p s).getLast? = s.getLast? := by
  induction s generalizing p with
  | nil => rfl
  | cons c s ih =>
    simp only [Spec.squeeze.squeezeAfter]
    cases s with
    | nil =>
      have hc : c ≠ 32 := by simpa using h
      simp [hc, Spec.squeeze.squeezeAfter]
    | cons d s =>
      have h' : (d :: s).getLast? ≠ some 32 := by simpa using h
      split
      · rw [ih _ h']; simp
      · have := ih (c == 32) h'
        generalize hz : Spec.squeeze.squeezeAfter (c == 32) (d :: s) = z at this
        cases z with
        | nil => rw [List.getLast?_nil, List.getLast?_cons] at this; simp at this
        | cons e z => rw [List.getLast?_cons_cons, this]; simp

theorem squeeze_getLast (s : Bytes) (h : s.getLast? ≠ some 32) : (Spec.squeeze s).getLast? = s.getLast? := by
  rw [← squeeze_eq, dropDoubleSpaces_eq, squeezeAfter_getLast _ _ h]

theorem squeeze_head (s : Bytes) : (Spec.squeeze s).head? = s.head? := by
  cases s <;> simp [Spec.squeeze]

theorem NoLeading_head {s : Bytes} (h : Spec.NoLeadingWhitespace s) : s.head? ≠ some 32 := by
  cases s with
  | nil => simp
  | cons b s =>
    intro hb
    simp at hb
    exact h [32] (by decide) (by simp [hb])

theorem NoTrailing_getLast {s : Bytes} (h : Spec.NoTrailingWhitespace s) : s.getLast? ≠ some 32 := by
  intro hb
  refine h [32] (by decide) ?_
  rcases List.eq_nil_or_concat s with rfl | ⟨t, b, rfl⟩
  · simp at hb
  · simp at hb; subst hb; rw [List.concat_eq_append]; exact List.suffix_append _ _

theorem LongerThanRuns.sep {c n : _} {x y : Bytes} {b : UInt8} (hb : b ≠ c) (hx : Spec.LongerThanRuns c n x)
    (hy : Spec.LongerThanRuns c n y) : Spec.LongerThanRuns c n (x ++ b :: y) := by
  intro k p q h
  rw [List.append_assoc, List.append_eq_append_iff] at h
  rcases h with ⟨a', h1, h2⟩ | ⟨c', h1, h2⟩
  · cases a' with
    | nil =>
      rw [List.nil_append] at h2
      cases k with
      | zero => exact hy 0 [] y (by simp)
      | succ k => rw [List.replicate_succ, List.cons_append, List.cons.injEq] at h2; exact absurd h2.1 hb
    | cons d a' =>
      rw [List.cons_append, List.cons.injEq] at h2
      exact hy k a' q (by rw [h2.2, List.append_assoc])
  · rw [List.append_eq_append_iff] at h2
    rcases h2 with ⟨e, h3, h4⟩ | ⟨e, h3, h4⟩
    · exact hx k p e (by rw [h1, h3, List.append_assoc])
    · cases e with
      | nil => rw [List.append_nil] at h3; exact hx k p [] (by rw [h1, h3]; simp)
      | cons d e =>
        rw [List.cons_append, List.cons.injEq] at h4
        exfalso
        have : d ∈ List.replicate k c := by rw [h3]; simp
        rw [List.mem_replicate] at this
        exact hb (h4.1.trans this.2)

theorem LongerThanRuns.pos {c n : _} {s : Bytes} (h : Spec.LongerThanRuns c n s) : 0 < n := h 0 [] s (by simp)

theorem LongerThanRuns.nil {c : UInt8} {n : Nat} (h : 0 < n) : Spec.LongerThanRuns c n [] := by
  intro k a b hh
  have := congrArg List.length hh
  simp at this; omega
theorem isPrefixOf_one (c : UInt8) (s : Bytes) : ([c].isPrefixOf s = true) = (s.head? = some c) := by
  cases s with
  | nil => simp
  | cons b s => simp only [List.isPrefixOf, Bool.and_true, beq_iff_eq, List.head?_cons, Option.some.injEq, eq_comm (a := c)]

theorem isSuffixOf_one (c : UInt8) (s : Bytes) : ([c].isSuffixOf s = true) = (s.getLast? = some c) := by
  rw [List.isSuffixOf, List.reverse_singleton, isPrefixOf_one, List.head?_reverse]

theorem inlineCode_eq {content : Bytes} (hb : ¬ Spec.AllWhitespace content) :
    ∃ mid, Spec.Trimmed (Spec.asSpaces content) mid ∧ Spec.squeeze mid ≠ [] ∧
      inlineCode content =
        List.replicate (calculateCodeFenceOccurrences 96 (Spec.squeeze mid) + 1) 96 ++
        ((if mid.head? = some 96 then [32] else []) ++ Spec.squeeze mid ++
         (if mid.getLast? = some 96 then [32] else [])) ++
        List.replicate (calculateCodeFenceOccurrences 96 (Spec.squeeze mid) + 1) 96 := by
  have hb2 : trimSpace content ≠ [] := fun h => hb ((trimSpace_nil_iff _).1 h)
  have hb3 : trimSpace (Spec.asSpaces content) ≠ [] := by
    intro h
    refine hb (Spec.AllWhitespace.of_map ?_ ((trimSpace_nil_iff _).1 h))
    intro b
    by_cases h : b = 10 ∨ b = 9
    · rcases h with rfl | rfl <;> exact Or.inr ⟨rfl, by decide⟩
    · exact Or.inl (by simp [h])
  have hT := trimSpace_spec (Spec.asSpaces content)
  refine ⟨trimSpace (Spec.asSpaces content), hT, ?_, ?_⟩
  · intro h
    have := squeeze_head (trimSpace (Spec.asSpaces content))
    rw [h] at this
    cases hc : trimSpace (Spec.asSpaces content) with
    | nil => exact hb3 hc
    | cons b s => rw [hc] at this; simp at this
  · have hc : collapseInlineCodeContent content = Spec.squeeze (trimSpace (Spec.asSpaces content)) := collapse_eq content
    obtain ⟨_, _, _, _, _, hlead, htrail⟩ := hT
    generalize hm : trimSpace (Spec.asSpaces content) = mid at *
    have h1 := squeeze_head mid
    have h2 := squeeze_getLast mid (NoTrailing_getLast htrail)
    have h3 : (Spec.squeeze mid) ≠ [] := by
      intro h; rw [h] at h1
      cases mid with
      | nil => exact hb3 rfl
      | cons b s => simp at h1
    rw [inlineCode, if_neg hb2, hc]
    simp only [isPrefixOf_one, isSuffixOf_one, h1]
    split
    · rename_i hh
      have : ([SP] ++ Spec.squeeze mid).getLast? = mid.getLast? := by
        rw [← h2]; cases hs : Spec.squeeze mid with
        | nil => exact absurd hs h3
        | cons b s => simp [List.getLast?_cons]
      rw [this]
      split <;> simp
    · rw [h2]; split <;> simp

theorem inlineCode_longer (mid : Bytes) :
    Spec.LongerThanRuns 96 (calculateCodeFenceOccurrences 96 (Spec.squeeze mid) + 1)
      ((if mid.head? = some 96 then [32] else []) ++ Spec.squeeze mid ++
         (if mid.getLast? = some 96 then [32] else [])) := by
  have h0 := occurrences_longer 96 (Spec.squeeze mid)
  have h1 : Spec.LongerThanRuns 96 (calculateCodeFenceOccurrences 96 (Spec.squeeze mid) + 1)
      ((if mid.head? = some 96 then [32] else []) ++ Spec.squeeze mid) := by
    split
    · exact LongerThanRuns.sep (x := []) (by decide) (LongerThanRuns.nil (by omega)) h0
    · simpa using h0
  by_cases h : mid.getLast? = some 96
  · rw [if_pos h]
    exact LongerThanRuns.sep (b := 32) (by decide) h1 (LongerThanRuns.nil (by omega))
  · rw [if_neg h, List.append_nil]; exact h1

theorem stripCode_padded {code : Bytes} (hne : code ≠ []) (h13 : ∀ b ∈ code, b ≠ 10 ∧ b ≠ 13)
    (hh : code.head? ≠ some 32) (hl : code.getLast? ≠ some 32) :
    Spec.stripCode ((if code.head? = some 96 then [32] else []) ++ code ++
        (if code.getLast? = some 96 then [32] else [])) =
      (if code.head? = some 96 ∧ code.getLast? ≠ some 96 then [32] else []) ++ code ++
        (if code.head? ≠ some 96 ∧ code.getLast? = some 96 then [32] else []) := by
  have hmap : ∀ l r : Bytes, (∀ b ∈ l, b = 32) → (∀ b ∈ r, b = 32) →
      (l ++ code ++ r).map (fun b => if b = 10 ∨ b = 13 then 32 else b) = l ++ code ++ r := by
    intro l r h1 h2
    rw [List.map_congr_left (g := id), List.map_id]
    intro x hx
    simp only [List.mem_append] at hx
    have : ¬ (x = 10 ∨ x = 13) := by
      rcases hx with (hx | hx) | hx
      · rw [h1 x hx]; decide
      · have := h13 x hx; simp [this]
      · rw [h2 x hx]; decide
    simp [this]
  have hall : ∀ l r : Bytes, (l ++ code ++ r).all (· == 32) = false := by
    intro l r
    cases code with
    | nil => exact absurd rfl hne
    | cons b s =>
      have : b ≠ 32 := by simpa using hh
      simp [this]
  have hg : ∀ l : Bytes, (l ++ code).getLast? = code.getLast? := by
    intro l
    rw [List.getLast?_append]
    cases hc : code.getLast? with
    | none => exact absurd (List.getLast?_eq_none_iff.1 hc) hne
    | some b => rfl
  have hd : ∀ r : Bytes, (code ++ r).head? = code.head? := by
    intro r
    cases code with
    | nil => exact absurd rfl hne
    | cons b s => rfl
  simp only [Spec.stripCode]
  rw [hmap _ _ (by intro b; split <;> simp) (by intro b; split <;> simp)]
  by_cases h1 : code.head? = some 96 <;> by_cases h2 : code.getLast? = some 96
  · simp only [h1, h2, if_true, hall, ne_eq, not_true, and_false, if_false, false_and]
    have : ([32] ++ code ++ [32]).getLast? = some 32 := by rw [List.getLast?_append]; rfl
    rw [if_pos ⟨rfl, this, trivial⟩]
    simp
  · simp only [h1, h2, if_true, ne_eq, not_true, and_false, if_false, not_false_eq_true, and_true,
      List.append_nil, hg]
    rw [if_neg (by simp [hl])]
  · simp only [h1, h2, if_true, ne_eq, not_true, and_false, if_false, not_false_eq_true, and_true,
      List.nil_append, hd]
    rw [if_neg (by simp [hh])]
  · simp only [h1, h2, if_true, ne_eq, not_true, and_false, if_false, not_false_eq_true, and_true,
      List.nil_append, List.append_nil]
    rw [if_neg (by simp [hh])]

/-- Escaping adds only markers and U+FFFD. -/
theorem escapeContent_mem (mode : Escape.Mode) (isMd : Nat → Bool) (t : Bytes) :
    ∀ b ∈ Escape.escapeContent mode isMd t, b ∈ t ∨ b ∈ [7, 239, 191, 189] := by
  cases mode with
  | disabled => intro b hb; exact Or.inl hb
  | smart =>
    simp only [Escape.escapeContent]
    induction t with
    | nil => simp [Escape.escapeLoop]
    | cons c t ih =>
      intro b hb
      simp only [Escape.escapeLoop] at hb
      split at hb
      · rw [List.mem_append] at hb
        rcases hb with hb | hb
        · right; revert hb; simp; grind
        · rcases ih b hb with h | h
          · exact Or.inl (by simp [h])
          · exact Or.inr h
      · split at hb
        · rcases List.mem_cons.1 hb with rfl | hb
          · right; decide
          · rcases List.mem_cons.1 hb with rfl | hb
            · left; simp
            · rcases ih b hb with h | h
              · exact Or.inl (by simp [h])
              · exact Or.inr h
        · rcases List.mem_cons.1 hb with rfl | hb
          · left; simp
          · rcases ih b hb with h | h
            · exact Or.inl (by simp [h])
            · exact Or.inr h

/-- Un-escaping adds only backslashes. -/
theorem unEscapeContent_mem (mode : Escape.Mode) (hs : List Escape.Handler) (t : Bytes) :
    ∀ b ∈ Escape.unEscapeContent mode hs t, b ∈ t ∨ b = 92 := by
  cases mode with
  | disabled => intro b hb; exact Or.inl hb
  | smart =>
    simp only [Escape.unEscapeContent]
    generalize Escape.changesLoop hs [] 0 t = chs
    induction t generalizing chs with
    | nil => simp [Escape.applyChanges]
    | cons c t ih =>
      intro b hb
      cases chs with
      | nil => exact Or.inl hb
      | cons ch chs =>
        simp only [Escape.applyChanges] at hb
        split at hb
        · rcases List.mem_cons.1 hb with rfl | hb
          · left; simp
          · rcases ih chs b hb with h | h
            · exact Or.inl (by simp [h])
            · exact Or.inr h
        · split at hb
          · rcases List.mem_cons.1 hb with rfl | hb
            · right; rfl
            · rcases ih chs b hb with h | h
              · exact Or.inl (by simp [h])
              · exact Or.inr h
          · rcases ih chs b hb with h | h
            · exact Or.inl (by simp [h])
            · exact Or.inr h

end Verif
