import Verif.Proofs.Code
import Verif.Spec.Blocks
/-!
# Lemmas about fenced code blocks and the post-render steps
-/

set_option linter.unusedSimpArgs false

namespace Verif
open Verif.TextUtils Verif.Commonmark

/-! ## reading -/

theorem splitOn_append {c : UInt8} (a b : Bytes) : splitOn c (a ++ c :: b) = splitOn c a ++ splitOn c b := by
  induction a with
  | nil => simp [splitOn_sep, splitOn]
  | cons x a ih =>
    by_cases h : x = c
    · subst h; rw [List.cons_append, splitOn_sep, splitOn_sep, ih]; rfl
    · obtain ⟨l, ls, h1, h2⟩ := splitOn_other h (a ++ c :: b)
      obtain ⟨l', ls', h1', h2'⟩ := splitOn_other h a
      rw [List.cons_append, h2, h2']
      rw [ih, h1'] at h1
      simp at h1
      simp [← h1.1, ← h1.2]

theorem mem_splitOn_infix {c : UInt8} {s l : Bytes} (h : l ∈ splitOn c s) : l <:+: s := by
  obtain ⟨p, q, hpq⟩ := List.append_of_mem h
  have hj := join_split c s
  rw [hpq] at hj
  have : ∀ p : List Bytes, l <:+: joinWith c (p ++ l :: q) := by
    intro p
    induction p with
    | nil =>
      cases q with
      | nil => simp [joinWith]
      | cons x q => exact (List.prefix_append _ _).isInfix
    | cons y p ih =>
      have hne : p ++ l :: q ≠ [] := by simp
      cases hh : p ++ l :: q with
      | nil => exact absurd hh hne
      | cons z r =>
        rw [List.cons_append, hh, joinWith]
        · rw [hh] at ih
          exact ih.trans ⟨y ++ [c], [], by simp⟩
        · simp
  exact hj ▸ this p

theorem takeWhile_eq_replicate (c : UInt8) (l : Bytes) :
    l.takeWhile (· == c) = List.replicate (l.takeWhile (· == c)).length c := by
  induction l with
  | nil => rfl
  | cons b l ih =>
    rw [List.takeWhile_cons]
    split
    · rename_i h
      rw [List.length_cons, List.replicate_succ, ← ih]
      simp at h; rw [h]
    · rfl

theorem not_closes_of_longer {c : UInt8} {n : Nat} {l : Bytes} (h : Spec.LongerThanRuns c n l) :
    Spec.closesFence c n l = false := by
  simp only [Spec.closesFence]
  have hd : Spec.LongerThanRuns c n (Spec.dropIndent3 l) := LongerThanRuns.infix h (List.drop_suffix _ _).isInfix
  have := hd ((Spec.dropIndent3 l).takeWhile (· == c)).length [] ((Spec.dropIndent3 l).dropWhile (· == c))
    (by rw [← takeWhile_eq_replicate, List.nil_append, List.takeWhile_append_dropWhile])
  rw [Bool.and_eq_false_iff]; left; simpa using this

theorem takeWhile_rep {c : UInt8} (n : Nat) {s : Bytes} (h : s.head? ≠ some c) :
    (List.replicate n c ++ s).takeWhile (· == c) = List.replicate n c ∧
    (List.replicate n c ++ s).dropWhile (· == c) = s := by
  induction n with
  | zero =>
    cases s with
    | nil => simp
    | cons b s =>
      have : b ≠ c := by simpa using h
      simp [List.takeWhile_cons, List.dropWhile_cons, this]
  | succ n ih => simp [List.replicate_succ, List.takeWhile_cons, List.dropWhile_cons, ih]

theorem dropIndent3_id {l : Bytes} (h : l.head? ≠ some 32) : Spec.dropIndent3 l = l := by
  cases l with
  | nil => rfl
  | cons b l =>
    have : b ≠ 32 := by simpa using h
    simp [Spec.dropIndent3, List.takeWhile_cons, this]

theorem closes_self {c : UInt8} (n : Nat) (hn : 3 ≤ n) (hc : c ≠ 32) :
    Spec.closesFence c n (List.replicate n c) = true := by
  simp only [Spec.closesFence]
  have h1 : Spec.dropIndent3 (List.replicate n c) = List.replicate n c := by
    apply dropIndent3_id
    cases n with
    | zero => omega
    | succ n => simpa [List.replicate_succ] using hc
  have := takeWhile_rep (c := c) n (s := []) (by simp)
  simp only [List.append_nil] at this
  rw [h1, this.1, this.2]; simp

theorem trimBlank_id {s : Bytes} (h1 : 32 ∉ s) (h2 : 9 ∉ s) : Spec.trimBlank s = s := by
  have key : ∀ s : Bytes, 32 ∉ s → 9 ∉ s → (s.dropWhile fun b => b == 32 || b == 9) = s := by
    intro s h1 h2
    cases s with
    | nil => rfl
    | cons b s =>
      simp at h1 h2
      simp [List.dropWhile_cons, Ne.symm h1.1, Ne.symm h2.1]
  rw [Spec.trimBlank, key s h1 h2, key _ (by simpa using h1) (by simpa using h2), List.reverse_reverse]

theorem takeWhile_false_append {α : Type} {p : α → Bool} {xs ys : List α} {y : α} (h : ∀ x ∈ xs, p x = true) (hy : p y = false) :
    (xs ++ y :: ys).takeWhile p = xs ∧ (xs ++ y :: ys).dropWhile p = y :: ys := by
  induction xs with
  | nil => simp [List.takeWhile_cons, List.dropWhile_cons, hy]
  | cons x xs ih =>
    have := ih (fun z hz => h z (by simp [hz]))
    simp [List.takeWhile_cons, List.dropWhile_cons, h x (by simp), this]

theorem readFenced_block {c : UInt8} (hc : c = 96 ∨ c = 126) {n : Nat} (hn : 3 ≤ n) {info code : Bytes}
    (hi : c ∉ info ∧ 32 ∉ info ∧ 9 ∉ info) (hl : Spec.LongerThanRuns c n code) (rest : List Bytes) :
    Spec.readFenced ((List.replicate n c ++ info) :: (Spec.lines code ++ List.replicate n c :: rest)) =
      some { info := info, code := Spec.lines code, closed := true, rest := rest } := by
  have hh : info.head? ≠ some c := by
    intro h
    cases info with
    | nil => simp at h
    | cons b s => simp at h; subst h; simp at hi
  obtain ⟨h1, h2⟩ := takeWhile_rep n hh
  have hlines : ∀ l ∈ Spec.lines code, (fun l => !Spec.closesFence c n l) l = true := by
    intro l hl'
    simp [not_closes_of_longer (LongerThanRuns.infix hl (mem_splitOn_infix hl'))]
  have hcl := closes_self (c := c) n hn (by rcases hc with rfl | rfl <;> decide)
  obtain ⟨h3, h4⟩ := takeWhile_false_append (ys := rest) hlines (y := List.replicate n c) (by simp [hcl])
  cases n with
  | zero => omega
  | succ m =>
    have e : List.replicate (m+1) c ++ info = c :: (List.replicate m c ++ info) := by simp [List.replicate_succ]
    rw [e] at h1 h2 ⊢
    rw [Spec.readFenced]
    simp only [h1, h2, h3, h4, trimBlank_id hi.2.1 hi.2.2, List.length_replicate]
    rw [if_pos]
    · simp only [Option.some.injEq, Spec.Fenced.mk.injEq, true_and]
      simp [hcl]
    · refine ⟨hc, hn, ?_⟩
      rintro ⟨rfl, h⟩; exact hi.1 h

/-! ## the steps of post-rendering, around a block -/

theorem restore_encode {code : Bytes} (h : ¬ codeNewline <:+: code) :
    restoreCodeNewlines (replaceAll [NL] codeNewline code) = code := by
  have hne : codeNewline ≠ [] := by decide
  rw [replaceAll_one, restoreCodeNewlines]
  induction code with
  | nil => rfl
  | cons b s ih =>
    have ih := ih (fun hi => h (hi.trans (List.suffix_cons b s).isInfix))
    rw [List.flatMap_cons]
    by_cases hb : b = NL
    · rw [if_pos hb, replaceAll_match _ _ _ hne, ih, hb]; rfl
    · rw [if_neg hb, List.singleton_append, replaceAll_nomatch, ih]
      rintro ⟨t, ht⟩
      simp only [codeNewline, List.cons_append, List.nil_append, List.cons.injEq] at ht
      obtain ⟨h1, h2⟩ := ht
      subst h1
      have step : ∀ (v : UInt8) (s t : Bytes), v ≠ 239 →
          v :: t = s.flatMap (fun b => if b = NL then codeNewline else [b]) →
          ∃ s', s = v :: s' ∧ t = s'.flatMap (fun b => if b = NL then codeNewline else [b]) := by
        intro v s t hv hs
        cases s with
        | nil => simp at hs
        | cons x s =>
          rw [List.flatMap_cons] at hs
          by_cases hx : x = NL
          · rw [if_pos hx] at hs
            simp only [codeNewline, List.cons_append, List.cons.injEq] at hs
            exact absurd hs.1 hv
          · rw [if_neg hx] at hs
            simp only [List.cons_append, List.nil_append, List.cons.injEq] at hs
            exact ⟨s, by rw [hs.1], hs.2⟩
      obtain ⟨s1, rfl, h3⟩ := step 128 s _ (by decide) h2
      obtain ⟨s2, rfl, h4⟩ := step 130 s1 _ (by decide) h3
      exact h ⟨[], s2, rfl⟩

/-- A block `B` of whole lines in a text. -/
def Framed (B s : Bytes) : Prop :=
  ∃ x y, s = x ++ B ++ y ∧ (x = [] ∨ x.getLast? = some NL) ∧ (y = [] ∨ y.head? = some NL)

theorem not_mem_ws {l : Bytes} (hl : Spec.AllWhitespace l) {c : UInt8} (hc : ∀ w ∈ Spec.whitespace, c ∉ w) : c ∉ l := by
  obtain ⟨ws, hws, rfl⟩ := hl
  intro h
  rw [List.mem_flatten] at h
  obtain ⟨w, h1, h2⟩ := h
  exact hc w (hws w h1) h2

theorem trimLeft_cut {c : UInt8} (hc : ∀ w ∈ Spec.whitespace, c ∉ w) (x z : Bytes) :
    ∃ x', x' <:+ x ∧ trimLeft (x ++ c :: z) = x' ++ c :: z := by
  obtain ⟨l, hl, hs, -⟩ := trimLeft_spec (x ++ c :: z)
  have hcl := not_mem_ws hl hc
  rcases List.append_eq_append_iff.1 hs with ⟨a, h1, h2⟩ | ⟨a, h1, h2⟩
  · cases a with
    | nil => exact ⟨[], List.nil_suffix, by simpa using h2.symm⟩
    | cons d a =>
      exfalso
      rw [List.cons_append, List.cons.injEq] at h2
      exact hcl (by rw [h1, ← h2.1]; simp)
  · exact ⟨a, ⟨l, h1.symm⟩, h2⟩

theorem trimRight_cut {c : UInt8} (hc : ∀ w ∈ Spec.whitespace, c ∉ w) (x z : Bytes) :
    ∃ z', z' <+: z ∧ trimRight (x ++ c :: z) = x ++ c :: z' := by
  obtain ⟨r, hr, hs, -⟩ := trimRight_spec (x ++ c :: z)
  have hcr := not_mem_ws hr hc
  have e : x ++ c :: z = (x ++ [c]) ++ z := by simp
  rw [e] at hs ⊢
  rcases List.append_eq_append_iff.1 hs with ⟨a, h1, h2⟩ | ⟨a, h1, h2⟩
  · exact ⟨a, ⟨r, h2.symm⟩, by rw [h1]; simp⟩
  · rcases List.eq_nil_or_concat a with rfl | ⟨a', d, rfl⟩
    · refine ⟨[], List.nil_prefix, ?_⟩
      rw [List.append_nil] at h1; rw [← h1]
    · exfalso
      rw [List.concat_eq_append, ← List.append_assoc] at h1
      have := List.append_inj_right' h1 rfl
      simp at this
      exact hcr (by rw [h2, this]; simp)

theorem framed_trimSpace {c : UInt8} (hc : ∀ w ∈ Spec.whitespace, c ∉ w) {M s : Bytes}
    (h : Framed (c :: M ++ [c]) s) : Framed (c :: M ++ [c]) (trimSpace s) := by
  obtain ⟨x, y, rfl, hx, hy⟩ := h
  obtain ⟨x', hx', h1⟩ := trimLeft_cut hc x (M ++ c :: y)
  obtain ⟨y', hy', h2⟩ := trimRight_cut hc (x' ++ c :: M) y
  refine ⟨x', y', ?_, ?_, ?_⟩
  · have e : x ++ (c :: M ++ [c]) ++ y = x ++ c :: (M ++ c :: y) := by simp
    rw [trimSpace, e, h1]
    have e : x' ++ c :: (M ++ c :: y) = x' ++ c :: M ++ c :: y := by simp
    rw [e, h2]; simp
  · rcases hx with rfl | hx
    · left; exact List.suffix_nil.1 hx'
    · by_cases hn : x' = []
      · exact Or.inl hn
      · right
        obtain ⟨t, rfl⟩ := hx'
        rw [List.getLast?_append] at hx
        cases hg : x'.getLast? with
        | none => exact absurd (List.getLast?_eq_none_iff.1 hg) hn
        | some b => rw [hg] at hx; simpa using hx
  · rcases hy with rfl | hy
    · left; exact List.prefix_nil.1 hy'
    · obtain ⟨t, rfl⟩ := hy'
      cases y' with
      | nil => exact Or.inl rfl
      | cons b y' => right; simpa using hy

theorem tcn_seg {c : UInt8} (h1 : c ≠ NL) (h2 : c ≠ SP) : ∀ (seg : Bytes) (k : Nat) (buf rest : Bytes),
    k + seg.count NL ≤ 2 → trimNewlinesGo k buf (seg ++ c :: rest) = buf ++ seg ++ c :: trimNewlinesGo 0 [] rest := by
  intro seg
  induction seg with
  | nil => intro k buf rest _; simp [trimNewlinesGo, h1, h2]
  | cons b seg ih =>
    intro k buf rest h
    rw [List.count_cons] at h
    rw [List.cons_append, trimNewlinesGo]
    by_cases hb : b = NL
    · subst hb
      simp only [beq_self_eq_true, if_true] at h
      rw [if_pos rfl, if_pos (by omega), ih _ _ _ (by omega)]; simp
    · rw [if_neg hb]
      have hb' : (b == NL) = false := by simpa using hb
      rw [hb'] at h
      simp only [Bool.false_eq_true, if_false] at h
      by_cases hb2 : b = SP
      · rw [if_pos hb2, ih _ _ _ (by omega), hb2]; simp
      · rw [if_neg hb2, ih _ _ _ (by omega)]; simp

theorem tcn_prefix {c : UInt8} (h1 : c ≠ NL) (h2 : c ≠ SP) (rest : Bytes) : ∀ (x : Bytes) (k : Nat) (buf : Bytes),
    ∃ x', trimNewlinesGo k buf (x ++ NL :: c :: rest) = x' ++ c :: trimNewlinesGo 0 [] rest ∧
      (x'.getLast? = some NL ∨ (x' = [] ∧ 2 ≤ k)) := by
  intro x
  induction x with
  | nil =>
    intro k buf
    by_cases hk : k + 1 ≤ 2
    · exact ⟨buf ++ [NL], by simp [trimNewlinesGo, h1, h2, hk], by simp⟩
    · exact ⟨[], by simp [trimNewlinesGo, h1, h2, hk], Or.inr ⟨rfl, by omega⟩⟩
  | cons b x ih =>
    intro k buf
    rw [List.cons_append, trimNewlinesGo]
    by_cases hb : b = NL
    · rw [if_pos hb]
      obtain ⟨x', e, hx'⟩ := ih (k+1) []
      by_cases hk : k + 1 ≤ 2
      · rw [if_pos hk]
        refine ⟨buf ++ NL :: x', by rw [e]; simp, Or.inl ?_⟩
        rcases hx' with hx' | ⟨hx', -⟩
        · rw [List.getLast?_append, List.getLast?_cons, hx']; rfl
        · rw [hx']; simp
      · rw [if_neg hk]
        refine ⟨x', e, ?_⟩
        rcases hx' with hx' | ⟨hx', -⟩
        · exact Or.inl hx'
        · exact Or.inr ⟨hx', by omega⟩
    · rw [if_neg hb]
      by_cases hb2 : b = SP
      · rw [if_pos hb2]; exact ih k _
      · rw [if_neg hb2]
        obtain ⟨x', e, hx'⟩ := ih 0 []
        refine ⟨buf ++ b :: x', by rw [e]; simp, Or.inl ?_⟩
        rcases hx' with hx' | ⟨-, hx'⟩
        · rw [List.getLast?_append, List.getLast?_cons, hx']; rfl
        · omega

theorem getLast_concat_of {x : Bytes} {b : UInt8} (h : x.getLast? = some b) : ∃ x0, x = x0 ++ [b] := by
  rcases List.eq_nil_or_concat x with rfl | ⟨t, c, rfl⟩
  · simp at h
  · rw [List.concat_eq_append] at h ⊢
    simp at h; subst h; exact ⟨t, rfl⟩

theorem framed_tcn {c : UInt8} (h1 : c ≠ NL) (h2 : c ≠ SP) {M s : Bytes} (hM : M.count NL ≤ 2)
    (h : Framed (c :: M ++ [c]) s) : Framed (c :: M ++ [c]) (trimConsecutiveNewlines s) := by
  obtain ⟨x, y, rfl, hx, hy⟩ := h
  have hpre : ∃ x', (x' = [] ∨ x'.getLast? = some NL) ∧
      trimConsecutiveNewlines (x ++ (c :: M ++ [c]) ++ y) = x' ++ c :: trimNewlinesGo 0 [] (M ++ c :: y) := by
    rcases hx with rfl | hx
    · refine ⟨[], Or.inl rfl, ?_⟩
      simp [trimConsecutiveNewlines, trimNewlinesGo, h1, h2]
    · obtain ⟨x0, rfl⟩ := getLast_concat_of hx
      obtain ⟨x', e, hx'⟩ := tcn_prefix h1 h2 (M ++ c :: y) x0 0 []
      refine ⟨x', ?_, ?_⟩
      · rcases hx' with h | ⟨h, -⟩
        · exact Or.inr h
        · exact Or.inl h
      · rw [trimConsecutiveNewlines, ← e]; simp
  obtain ⟨x', hx', e⟩ := hpre
  refine ⟨x', trimNewlinesGo 0 [] y, ?_, hx', ?_⟩
  · rw [e, tcn_seg h1 h2 M 0 [] y (by omega)]; simp
  · rcases hy with rfl | hy
    · left; rfl
    · cases y with
      | nil => simp at hy
      | cons b y => simp at hy; subst hy; right; simp [trimNewlinesGo]

theorem framed_replace {pat : Bytes} {c : UInt8} (hc : c ∉ pat) (hl : pat.getLast? = some NL) (hh : pat.head? ≠ some NL)
    {M s : Bytes} (hM : ¬ pat <:+: M) (h : Framed (c :: M ++ [c]) s) :
    Framed (c :: M ++ [c]) (replaceAll pat b!"\n\n" s) := by
  have hne : pat ≠ [] := by intro h; simp [h] at hl
  obtain ⟨x, y, rfl, hx, hy⟩ := h
  refine ⟨replaceAll pat b!"\n\n" x, replaceAll pat b!"\n\n" y, ?_, ?_, ?_⟩
  · have e : x ++ (c :: M ++ [c]) ++ y = x ++ c :: (M ++ c :: y) := by simp
    rw [e, replaceAll_cut _ hc hne, replaceAll_cut _ hc hne, replaceAll_id hM]; simp
  · rcases hx with rfl | hx
    · left; rfl
    · right
      revert hx
      refine replaceAll_induct (P := fun x => x.getLast? = some NL → (replaceAll pat b!"\n\n" x).getLast? = some NL) hne ?_ ?_ ?_ x
      · simp
      · intro s ih hs
        rw [replaceAll_match _ _ _ hne, List.getLast?_append]
        by_cases hn : s = []
        · subst hn; rfl
        · rw [List.getLast?_append] at hs
          cases hg : s.getLast? with
          | none => exact absurd (List.getLast?_eq_none_iff.1 hg) hn
          | some b => rw [hg] at hs; rw [ih (by rw [hg]; simpa using hs)]; rfl
      · intro b s hnp ih hs
        rw [replaceAll_nomatch hnp]
        rw [List.getLast?_cons] at hs ⊢
        by_cases hn : s = []
        · subst hn; simpa using hs
        · cases hg : s.getLast? with
          | none => exact absurd (List.getLast?_eq_none_iff.1 hg) hn
          | some d => rw [hg] at hs; rw [ih (by rw [hg]; simpa using hs)]; rfl
  · rcases hy with rfl | hy
    · left; rfl
    · right
      cases y with
      | nil => simp at hy
      | cons b y =>
        simp at hy; subst hy
        rw [replaceAll_nomatch]
        · rfl
        · rintro ⟨t, ht⟩
          cases pat with
          | nil => exact hne rfl
          | cons p pat =>
            rw [List.cons_append, List.cons.injEq] at ht
            exact hh (by simp [ht.1])

theorem no_pattern {F E G sp : Bytes} (hF : 10 ∉ F) (hE : 10 ∉ E) (hG : 10 ∉ G) (hl : F.getLast? ≠ some 32) (hsp : 10 ∉ sp) :
    ¬ (b!"  \n" ++ sp ++ [NL]) <:+: F ++ NL :: (E ++ NL :: G) := by
  rintro ⟨a, b, h⟩
  have h1 := congrArg (splitOn NL) h
  have e : a ++ (b!"  \n" ++ sp ++ [NL]) ++ b = (a ++ [32, 32]) ++ NL :: (sp ++ NL :: b) := by simp
  rw [e, splitOn_append, splitOn_append, splitOn_append, splitOn_append, splitOn_of_no_sep hF, splitOn_of_no_sep hE,
    splitOn_of_no_sep hG, splitOn_of_no_sep hsp] at h1
  have hj := join_split NL (a ++ [32, 32])
  cases hA : splitOn NL (a ++ [32, 32]) with
  | nil => exact splitOn_nonempty _ _ hA
  | cons l ls =>
    cases hB : splitOn NL b with
    | nil => exact splitOn_nonempty _ _ hB
    | cons m ms =>
      rw [hA, hB] at h1
      cases ls with
      | nil =>
        rw [hA] at hj
        simp [joinWith] at hj
        simp at h1
        apply hl; rw [← h1.1, hj]; simp
      | cons l2 ls =>
        have := congrArg List.length h1
        simp at this
        omega

theorem applyChanges_append : ∀ (x : Bytes) (chs : List Bool) (z : Bytes), Escape.applyChanges chs (x ++ z) =
    Escape.applyChanges chs x ++ Escape.applyChanges (chs.drop x.length) z := by
  intro x
  induction x with
  | nil => simp [Escape.applyChanges]
  | cons b x ih =>
    intro chs z
    cases chs with
    | nil => cases z <;> simp [Escape.applyChanges]
    | cons ch chs =>
      simp only [List.cons_append, Escape.applyChanges, List.length_cons, List.drop_succ_cons, ih]
      split
      · rfl
      · split <;> rfl

theorem applyChanges_nomark : ∀ (x : Bytes) (chs : List Bool), MARK ∉ x → Escape.applyChanges chs x = x := by
  intro x
  induction x with
  | nil => intro chs _; simp [Escape.applyChanges]
  | cons b x ih =>
    intro chs h
    simp at h
    cases chs with
    | nil => simp [Escape.applyChanges]
    | cons ch chs => simp [Escape.applyChanges, Ne.symm h.1, ih chs h.2]

theorem framed_unEscape {B s : Bytes} (mode : Escape.Mode) (hs : List Escape.Handler) (hB : MARK ∉ B) (h : Framed B s) :
    Framed B (Escape.unEscapeContent mode hs s) := by
  cases mode with
  | disabled => exact h
  | smart =>
    simp only [Escape.unEscapeContent]
    generalize Escape.changesLoop hs [] 0 s = chs
    obtain ⟨x, y, rfl, hx, hy⟩ := h
    rw [applyChanges_append, applyChanges_append, applyChanges_nomark B _ hB]
    refine ⟨_, _, rfl, ?_, ?_⟩
    · rcases hx with rfl | hx
      · left; simp [Escape.applyChanges]
      · right
        obtain ⟨x0, rfl⟩ := getLast_concat_of hx
        rw [applyChanges_append, applyChanges_nomark [NL] _ (by decide)]
        simp
    · rcases hy with rfl | hy
      · left; simp [Escape.applyChanges]
      · right
        cases y with
        | nil => simp at hy
        | cons b y =>
          simp at hy; subst hy
          rw [← List.singleton_append, applyChanges_append, applyChanges_nomark [NL] _ (by decide)]
          rfl

theorem framed_restore {c : UInt8} (hc : c ∉ codeNewline) {M s : Bytes} (h : Framed (c :: M ++ [c]) s) :
    Framed (c :: restoreCodeNewlines M ++ [c]) (restoreCodeNewlines s) := by
  have hne : codeNewline ≠ [] := by decide
  obtain ⟨x, y, rfl, hx, hy⟩ := h
  refine ⟨restoreCodeNewlines x, restoreCodeNewlines y, ?_, ?_, ?_⟩
  · have e : x ++ (c :: M ++ [c]) ++ y = x ++ c :: (M ++ c :: y) := by simp
    rw [e]; simp only [restoreCodeNewlines]
    rw [replaceAll_cut _ hc hne, replaceAll_cut _ hc hne]; simp
  · rcases hx with rfl | hx
    · left; rfl
    · right
      obtain ⟨x0, rfl⟩ := getLast_concat_of hx
      rw [restoreCodeNewlines, replaceAll_cut _ (by decide) hne]; simp
  · rcases hy with rfl | hy
    · left; rfl
    · right
      cases y with
      | nil => simp at hy
      | cons b y =>
        simp at hy; subst hy
        rw [restoreCodeNewlines, replaceAll_nomatch (by simp [codeNewline])]; rfl

theorem postRender_block (mode : Escape.Mode) (hs : List Escape.Handler) {c : UInt8} (hc : c = 96 ∨ c = 126) {n : Nat}
    (hn : 3 ≤ n) {info code s : Bytes}
    (hi10 : 10 ∉ info) (hi7 : 7 ∉ info) (hi32 : info.getLast? ≠ some 32) (hiF : ¬ codeNewline <:+: info)
    (hc7 : 7 ∉ code) (hcF : ¬ codeNewline <:+: code)
    (h : Framed (List.replicate n c ++ info ++ [NL] ++ replaceAll [NL] codeNewline code ++ [NL] ++ List.replicate n c) s) :
    Framed (List.replicate n c ++ info ++ [NL] ++ code ++ [NL] ++ List.replicate n c) (postRender mode hs s) := by
  obtain ⟨m, rfl⟩ : ∃ m, n = m + 1 := ⟨n - 1, by omega⟩
  have c10 : c ≠ 10 := by rcases hc with rfl | rfl <;> decide
  have c32 : c ≠ 32 := by rcases hc with rfl | rfl <;> decide
  have c7 : c ≠ 7 := by rcases hc with rfl | rfl <;> decide
  have cw : ∀ w ∈ Spec.whitespace, c ∉ w := by rcases hc with rfl | rfl <;> decide
  have cF : c ∉ codeNewline := by rcases hc with rfl | rfl <;> decide
  have hne : codeNewline ≠ [] := by decide
  have hshape : ∀ X : Bytes, List.replicate (m+1) c ++ info ++ [NL] ++ X ++ [NL] ++ List.replicate (m+1) c =
      c :: (List.replicate m c ++ info ++ NL :: (X ++ NL :: List.replicate m c)) ++ [c] := by
    intro X
    have e1 : List.replicate (m+1) c = c :: List.replicate m c := List.replicate_succ
    have e2 : List.replicate (m+1) c = List.replicate m c ++ [c] := List.replicate_succ'
    conv => lhs; rhs; rw [e2]
    rw [e1]; simp
  rw [hshape] at h ⊢
  have henc10 : 10 ∉ replaceAll [NL] codeNewline code := by
    rw [replaceAll_one]
    simp only [List.mem_flatMap, not_exists, not_and]
    intro b _
    by_cases hb : b = NL
    · rw [if_pos hb]; decide
    · rw [if_neg hb]; simpa using Ne.symm hb
  have henc7 : 7 ∉ replaceAll [NL] codeNewline code := by
    rw [replaceAll_one]
    simp only [List.mem_flatMap, not_exists, not_and]
    intro b hb'
    by_cases hb : b = NL
    · rw [if_pos hb]; decide
    · rw [if_neg hb]; simp; rintro rfl; exact hc7 hb'
  have hF10 : 10 ∉ List.replicate m c ++ info := by
    simp [List.mem_replicate, Ne.symm c10, hi10]
  have hG10 : 10 ∉ List.replicate m c := by simp [List.mem_replicate, Ne.symm c10]
  have hF32 : (List.replicate m c ++ info).getLast? ≠ some 32 := by
    rw [List.getLast?_append]
    cases hg : info.getLast? with
    | some b => rw [hg] at hi32; simpa using hi32
    | none =>
      intro h
      have := List.mem_of_getLast? h
      rw [List.mem_replicate] at this
      exact c32 this.2.symm
  have np := fun sp hsp => no_pattern (sp := sp) hF10 henc10 hG10 hF32 hsp
  have hcount : (List.replicate m c ++ info ++ NL :: (replaceAll [NL] codeNewline code ++ NL :: List.replicate m c)).count NL ≤ 2 := by
    simp only [List.count_append, List.count_cons, List.count_eq_zero.2 hi10,
      List.count_eq_zero.2 henc10, List.count_eq_zero.2 hG10]
    decide
  generalize hM : List.replicate m c ++ info ++ NL :: (replaceAll [NL] codeNewline code ++ NL :: List.replicate m c) = M at *
  have hM7 : 7 ∉ c :: M ++ [c] := by
    rw [← hM]
    simp [List.mem_replicate, Ne.symm c7, hi7, henc7]
  have hrest : restoreCodeNewlines M = List.replicate m c ++ info ++ NL :: (code ++ NL :: List.replicate m c) := by
    rw [← hM, restoreCodeNewlines, replaceAll_cut _ (by decide) hne, replaceAll_cut _ (by decide) hne]
    have : replaceAll codeNewline [NL] (replaceAll [NL] codeNewline code) = code := restore_encode hcF
    rw [this, replaceAll_id (s := List.replicate m c), replaceAll_id]
    · intro hinf
      have key : ∀ k, codeNewline <:+: List.replicate k c ++ info → False := by
        intro k
        induction k with
        | zero => simpa using hiF
        | succ k ih =>
          rw [List.replicate_succ, List.cons_append]
          intro h
          rw [List.infix_cons_iff] at h
          rcases h with h | h
          · obtain ⟨t, ht⟩ := h
            simp only [codeNewline, List.cons_append, List.cons.injEq] at ht
            rcases hc with rfl | rfl <;> exact absurd ht.1 (by decide)
          · exact ih h
      exact key m hinf
    · intro hinf
      have : (239 : UInt8) ∈ List.replicate m c := hinf.subset (by decide)
      rw [List.mem_replicate] at this
      rcases hc with rfl | rfl <;> exact absurd this.2 (by decide)
  rw [← hrest]
  have h := framed_trimSpace cw h
  have h := framed_tcn c10 c32 hcount h
  have h1 := framed_replace (pat := b!"  \n\n") (by simp [c10, c32]) (by decide) (by decide) (np [] (by decide)) h
  have h2 := framed_replace (pat := b!"  \n  \n") (by simp [c10, c32]) (by decide) (by decide) (np [32,32] (by decide)) h1
  have h3 := framed_replace (pat := b!"  \n \n") (by simp [c10, c32]) (by decide) (by decide) (np [32] (by decide)) h2
  exact framed_restore cF (framed_unEscape mode hs hM7 h3)

end Verif
