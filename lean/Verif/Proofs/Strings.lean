import Verif.Basic.Bytes
/-!
# Lemmas about splitting, joining and replacing
-/

namespace Verif

/-! ## splitOn, joinWith -/

theorem splitOn_nonempty (c : UInt8) (s : Bytes) : splitOn c s ≠ [] := by
  cases s with
  | nil => simp [splitOn]
  | cons b s =>
    simp only [splitOn]
    split
    · simp
    · split <;> simp

theorem splitOn_sep (c : UInt8) (s : Bytes) : splitOn c (c :: s) = [] :: splitOn c s := by simp [splitOn]

theorem splitOn_other {b c : UInt8} (h : b ≠ c) (s : Bytes) :
    ∃ l ls, splitOn c s = l :: ls ∧ splitOn c (b :: s) = (b :: l) :: ls := by
  cases hs : splitOn c s with
  | nil => exact absurd hs (splitOn_nonempty c s)
  | cons l ls => exact ⟨l, ls, rfl, by simp [splitOn, h, hs]⟩

theorem join_split (c : UInt8) (s : Bytes) : joinWith c (splitOn c s) = s := by
  induction s with
  | nil => simp [splitOn, joinWith]
  | cons b s ih =>
    by_cases h : b = c
    · subst h
      rw [splitOn_sep]
      cases hs : splitOn b s with
      | nil => exact absurd hs (splitOn_nonempty b s)
      | cons l ls => rw [hs] at ih; simp [joinWith, ih]
    · obtain ⟨l, ls, h1, h2⟩ := splitOn_other h s
      rw [h1] at ih
      rw [h2]
      cases ls with
      | nil => simpa [joinWith] using ih
      | cons l' ls => simpa [joinWith] using ih

theorem splitOn_no_sep (c : UInt8) (s : Bytes) : ∀ l ∈ splitOn c s, c ∉ l := by
  induction s with
  | nil => simp [splitOn]
  | cons b s ih =>
    intro x hx
    by_cases h : b = c
    · subst h
      rw [splitOn_sep] at hx
      rcases List.mem_cons.1 hx with rfl | hx
      · simp
      · exact ih _ hx
    · obtain ⟨l, ls, h1, h2⟩ := splitOn_other h s
      rw [h2] at hx
      rcases List.mem_cons.1 hx with rfl | hx
      · simp only [List.mem_cons, not_or]
        exact ⟨Ne.symm h, ih l (by simp [h1])⟩
      · exact ih x (by simp [h1, hx])

theorem splitOn_of_no_sep {c : UInt8} {s : Bytes} (h : c ∉ s) : splitOn c s = [s] := by
  induction s with
  | nil => simp [splitOn]
  | cons b s ih =>
    simp at h
    simp [splitOn, Ne.symm h.1, ih h.2]

theorem splitOn_cat (c : UInt8) : ∀ (a s : Bytes), c ∉ a → splitOn c (a ++ c :: s) = a :: splitOn c s := by
  intro a s h
  induction a with
  | nil => exact splitOn_sep c s
  | cons b a ih =>
    simp at h
    simp [splitOn, Ne.symm h.1, ih h.2]

theorem split_join {c : UInt8} {ls : List Bytes} (hne : ls ≠ []) (h : ∀ l ∈ ls, c ∉ l) :
    splitOn c (joinWith c ls) = ls := by
  induction ls with
  | nil => exact absurd rfl hne
  | cons l ls ih =>
    cases ls with
    | nil => simpa [joinWith] using splitOn_of_no_sep (h l (by simp))
    | cons l' ls =>
      rw [joinWith, splitOn_cat c _ _ (h l (by simp)), ih (by simp) (fun x hx => h x (by simp [hx]))]
      simp

theorem splitOn_eq_of {c : UInt8} {s : Bytes} {ls : List Bytes} (h : joinWith c ls = s) (hne : ls ≠ [])
    (hno : ∀ l ∈ ls, c ∉ l) : splitOn c s = ls := by rw [← h, split_join hne hno]

/-! ## replaceAll -/

theorem replaceGo_one (a : UInt8) (new s : Bytes) :
    replaceGo [a] new 0 s = s.flatMap fun b => if b = a then new else [b] := by
  induction s with
  | nil => rfl
  | cons b s ih =>
    simp only [replaceGo, List.flatMap_cons]
    by_cases h : b = a
    · simp [h, ih]
    · simp [h, Ne.symm h, ih]

theorem replaceAll_one (a : UInt8) (new s : Bytes) :
    replaceAll [a] new s = s.flatMap fun b => if b = a then new else [b] := replaceGo_one a new s

theorem replaceAll_one_map (a c : UInt8) (s : Bytes) :
    replaceAll [a] [c] s = s.map fun b => if b = a then c else b := by
  rw [replaceAll_one]
  induction s with
  | nil => rfl
  | cons b s ih => simp only [List.flatMap_cons, ih, List.map_cons]; split <;> rfl

theorem replaceGo_skip (old new : Bytes) : ∀ (w s : Bytes), replaceGo old new w.length (w ++ s) = replaceGo old new 0 s := by
  intro w
  induction w with
  | nil => intro s; simp
  | cons b w ih => intro s; simp [replaceGo, ih]

/-- A match at the front. -/
theorem replaceAll_match (old new s : Bytes) (h : old ≠ []) :
    replaceAll old new (old ++ s) = new ++ replaceAll old new s := by
  cases old with
  | nil => exact absurd rfl h
  | cons b old =>
    simp only [replaceAll, List.cons_append, replaceGo]
    rw [if_pos (by simp)]
    congr 1
    exact replaceGo_skip _ _ old s

theorem replaceAll_nomatch {old new s : Bytes} {b : UInt8} (h : ¬ old <+: b :: s) :
    replaceAll old new (b :: s) = b :: replaceAll old new s := by
  simp only [replaceAll, replaceGo]
  rw [if_neg (by simpa using h)]

@[simp] theorem replaceAll_nil (old new : Bytes) : replaceAll old new [] = [] := rfl

/-- Induction along `replaceAll`: a list starts with a match, or with a byte that is kept. -/
theorem replaceAll_induct {old : Bytes} (hne : old ≠ []) {P : Bytes → Prop} (h0 : P [])
    (h1 : ∀ s, P s → P (old ++ s)) (h2 : ∀ b s, ¬ old <+: b :: s → P s → P (b :: s)) : ∀ s, P s := by
  have main : ∀ (n : Nat) (s : Bytes), s.length ≤ n → P s := by
    intro n
    induction n with
    | zero => intro s hs; rw [List.length_eq_zero_iff.1 (Nat.le_zero.1 hs)]; exact h0
    | succ n ih =>
      intro s hs
      cases s with
      | nil => exact h0
      | cons b s =>
        by_cases h : old <+: b :: s
        · obtain ⟨t, ht⟩ := h
          rw [← ht]
          apply h1
          apply ih
          have := congrArg List.length ht
          have h0 : 0 < old.length := List.length_pos_iff.2 hne
          simp at this hs
          omega
        · exact h2 b s h (ih s (by simp at hs; omega))
  exact fun s => main s.length s (Nat.le_refl _)

/-- Nothing to replace. -/
theorem replaceAll_id {old new s : Bytes} (h : ¬ old <:+: s) : replaceAll old new s = s := by
  induction s with
  | nil => rfl
  | cons b s ih =>
    rw [replaceAll_nomatch (fun hp => h hp.isInfix), ih (fun hi => h (hi.trans (List.suffix_cons b s).isInfix))]

theorem prefix_of_not_mem {old a b : Bytes} {v : UInt8} (hv : v ∉ old) (h : old <+: a ++ v :: b) : old <+: a := by
  obtain ⟨u, hu⟩ := h
  rcases List.append_eq_append_iff.1 hu with ⟨t, ht, h2⟩ | ⟨t, ht, h2⟩
  · exact ⟨t, ht.symm⟩
  · cases t with
    | nil => exact ⟨[], by simp [ht]⟩
    | cons c t =>
      simp at h2
      exact absurd (by simp [ht, h2.1]) hv

/-- A byte that does not occur in the pattern cuts the work in two. -/
theorem replaceAll_cut {old : Bytes} (new : Bytes) {v : UInt8} (hv : v ∉ old) (hne : old ≠ []) (a b : Bytes) :
    replaceAll old new (a ++ v :: b) = replaceAll old new a ++ v :: replaceAll old new b := by
  revert a
  refine replaceAll_induct hne ?_ ?_ ?_
  · simp only [List.nil_append, replaceAll_nil]
    apply replaceAll_nomatch
    intro h
    have := prefix_of_not_mem (a := []) hv (by simpa using h)
    exact hne (by simpa using this)
  · intro s ih
    rw [List.append_assoc, replaceAll_match _ _ _ hne, ih, replaceAll_match _ _ _ hne, List.append_assoc]
  · intro c s hno ih
    rw [List.cons_append, replaceAll_nomatch, ih, replaceAll_nomatch hno, List.cons_append]
    intro h
    exact hno (prefix_of_not_mem hv (by simpa using h))

end Verif
