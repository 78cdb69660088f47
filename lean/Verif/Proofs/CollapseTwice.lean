import Verif.Proofs.CollapseTree
/-!
# Collapsing twice
-/
set_option linter.unusedSimpArgs false

namespace Verif.Collapse
open Verif Verif.Spec Verif.Dom

theorem firstText_cases (s : Vars) (d : Bytes) :
    (firstText s d = ([], s)) ∨
    ∃ t, firstText s d = ([.text t], { s with prev := some (t.getLast? = some SP) }) ∧ t ≠ [] ∧ Tidy false t ∧
      (t.head? = some SP → s.prev = some false ∨ s.keep = true) := by
  rw [firstText, replaceWs_eq]
  have ht := oneSpaceAfter_tidy d false
  change Tidy false (oneSpace d) at ht
  split
  · rename_i hc
    by_cases h0 : (oneSpace d).tail = []
    · left; simp [h0]
    · right
      refine ⟨(oneSpace d).tail, by simp [h0], h0, ht.tail, ?_⟩
      intro hh
      exfalso
      cases hd : oneSpace d with
      | nil => rw [hd] at h0; simp at h0
      | cons b r =>
        rw [hd] at ht hc hh
        simp at hc hh
        cases r with
        | nil => simp at hh
        | cons c r =>
          simp at hh
          have := (ht.2.1 (by rw [hh]; decide)).2
          rw [hc.2.2] at this
          exact absurd this (by decide)
  · rename_i hc
    by_cases h0 : oneSpace d = []
    · left; simp [h0]
    · right
      refine ⟨oneSpace d, by simp [h0], h0, ht, ?_⟩
      intro hh
      cases hp : s.prev with
      | none => right; cases hk : s.keep with
        | true => rfl
        | false => exact absurd ⟨.inl hp, hk, hh⟩ hc
      | some b =>
        cases b with
        | false => exact .inl rfl
        | true =>
          right; cases hk : s.keep with
          | true => rfl
          | false => exact absurd ⟨.inr hp, hk, hh⟩ hc

/-- A text that is tidy already and whose leading space is kept stays as it is. -/
theorem firstText_keep (s : Vars) (t : Bytes) (h0 : t ≠ []) (ht : Tidy false t)
    (hh : t.head? = some SP → s.prev = some false ∨ s.keep = true) :
    firstText s t = ([.text t], { s with prev := some (t.getLast? = some SP) }) := by
  rw [firstText, replaceWs_eq, oneSpace, tidy_oneSpaceAfter t false ht]
  have hc : ¬ ((s.prev = none ∨ s.prev = some true) ∧ s.keep = false ∧ t.head? = some SP) := by
    rintro ⟨h1, h2, h3⟩
    rcases hh h3 with h | h
    · rw [h] at h1; simp at h1
    · rw [h2] at h; simp at h
  simp only [hc, if_false, h0]

theorem trimSuffix_head {t : Bytes} (h : trimSuffix t ≠ []) : (trimSuffix t).head? = t.head? := by
  rw [trimSuffix] at h ⊢
  split
  · rename_i hl
    rw [if_pos hl] at h
    cases t with
    | nil => rfl
    | cons b t =>
      cases t with
      | nil => simp at h
      | cons c t => rfl
  · rfl

theorem firstText_nil (s : Vars) : firstText s [] = ([], s) := by rw [firstText]; simp [replaceWs]

theorem withoutEmptyL_append (p : Bytes → Bool) (a b : List Node) :
    withoutEmptyL p (a ++ b) = withoutEmptyL p a ++ withoutEmptyL p b := by
  induction a with
  | nil => rfl
  | cons x a ih =>
    rw [List.cons_append, withoutEmptyL, withoutEmptyL, ih]
    split <;> rfl

theorem firstL_append (f : DomFuncs) (a b : List Node) : ∀ s, firstL f s (a ++ b) =
    ((firstL f s a).1 ++ (firstL f (firstL f s a).2 b).1, (firstL f (firstL f s a).2 b).2) := by
  induction a with
  | nil => intro s; rfl
  | cons x a ih => intro s; simp only [List.cons_append, firstL, ih, List.append_assoc]

theorem secondL_append (f : DomFuncs) (a b : List Node) : ∀ s, secondL f s (a ++ b) =
    ((secondL f (secondL f s b).2 a).1 ++ (secondL f s b).1, (secondL f (secondL f s b).2 a).2) := by
  induction a with
  | nil => intro s; rfl
  | cons x a ih => intro s; simp only [List.cons_append, secondL, ih, List.append_assoc]

theorem firstL_one (f : DomFuncs) (s : Vars) (n : Node) : firstL f s [n] = first f s n := by simp [firstL]
theorem secondL_one (f : DomFuncs) (s : Next) (n : Node) : secondL f s [n] = second f s n := by simp [secondL]

/-- Where the text before is not affected, visiting depends on equal variables only. -/
theorem visit_congr {f : DomFuncs} {n : Bytes} {nx : Next} {s s' : Vars} (h : before f nx n = .other → s' = s) (hn : nx = .other) :
    visit f s' n = visit f s n := by
  rw [before] at h
  rw [visit, visit]
  split
  · rfl
  · split
    · rfl
    · rename_i h1 h2
      rw [if_neg h1, if_neg h2] at h
      rw [h hn]

/-- The first part on its own result. -/
theorem first_again (f : DomFuncs) :
    (∀ n, ∀ s s' next, ((secondL f next (first f s n).1).2 = .other → s' = s) →
      ∃ s1', firstL f s' (secondL f next (first f s n).1).1 = (withoutEmptyL f.isPre (secondL f next (first f s n).1).1, s1') ∧
        (next = .other → s1' = (first f s n).2)) ∧
    (∀ ns, ∀ s s' next, ((secondL f next (firstL f s ns).1).2 = .other → s' = s) →
      ∃ s1', firstL f s' (secondL f next (firstL f s ns).1).1 = (withoutEmptyL f.isPre (secondL f next (firstL f s ns).1).1, s1') ∧
        (next = .other → s1' = (firstL f s ns).2)) := by
  apply induct
  · intro d s s' next h
    rw [first] at h ⊢
    rcases firstText_cases s d with h1 | ⟨t, h1, h0, ht, hh⟩
    · rw [h1] at h ⊢
      exact ⟨s', rfl, h⟩
    · rw [h1] at h ⊢
      simp only [secondL_one] at h ⊢
      cases next with
      | other =>
        have hs := h (by simp [second])
        subst hs
        refine ⟨_, ?_, fun _ => rfl⟩
        simp [second, firstL_one, first, firstText_keep s' t h0 ht hh, withoutEmptyL, isEmptyTextNode, h0, withoutEmpty]
      | block =>
        have hs := h (by simp [second])
        subst hs
        simp only [second, firstL_one, first]
        by_cases h2 : trimSuffix t = []
        · rw [h2, firstText_nil]
          exact ⟨s', by simp [withoutEmptyL, isEmptyTextNode], by simp⟩
        · rw [firstText_keep s' _ h2 (trimSuffix_tidy ht) (by rw [trimSuffix_head h2]; exact hh)]
          exact ⟨{ s' with prev := some ((trimSuffix t).getLast? = some SP) }, by simp [withoutEmptyL, isEmptyTextNode, h2, withoutEmpty], by simp⟩
      | stop =>
        have hs := h (by simp [second])
        subst hs
        simp only [second]
        by_cases h2 : trimSuffix t = []
        · simp only [h2, if_true]
          exact ⟨_, rfl, by simp⟩
        · simp only [h2, if_false, firstL_one, first]
          rw [firstText_keep s' _ h2 (trimSuffix_tidy ht) (by rw [trimSuffix_head h2]; exact hh)]
          exact ⟨{ s' with prev := some ((trimSuffix t).getLast? = some SP) }, by simp [withoutEmptyL, isEmptyTextNode, h2, withoutEmpty], by simp⟩
  · intro d s s' next h
    simp only [first, secondL_one, second] at h ⊢
    exact ⟨s', by simp [firstL_one, first, withoutEmptyL, isEmptyTextNode, withoutEmpty], h⟩
  · intro d s s' next h
    simp only [first, secondL] at h ⊢
    exact ⟨s', rfl, h⟩
  · intro cs _ s s' next h
    simp only [first, secondL] at h ⊢
    exact ⟨s', rfl, h⟩
  · intro n a cs ih s s' next h
    rw [first] at h ⊢
    by_cases hp : f.isPre n = true
    · simp only [hp, if_true, secondL_one, second] at h ⊢
      refine ⟨visit f s' n, ?_, ?_⟩
      · simp [firstL_one, first, hp, withoutEmptyL, isEmptyTextNode, withoutEmpty]
      · intro hn; exact visit_congr h hn
    · simp only [hp, Bool.false_eq_true, if_false, secondL_one, second] at h ⊢
      obtain ⟨s1', h1, h2⟩ := ih (visit f s n) (visit f s' n) (before f next n) (fun hn => visit_congr h hn)
      refine ⟨visit f s1' n, ?_, ?_⟩
      · simp [firstL_one, first, hp, withoutEmptyL, isEmptyTextNode, withoutEmpty, h1]
      · intro hn
        exact visit_congr h2 hn
  · intro s s' next h
    exact ⟨s', rfl, h⟩
  · intro n ns ih1 ih2 s s' next h
    simp only [firstL, secondL_append] at h ⊢
    obtain ⟨s1', h1, h2⟩ := ih1 s s' (secondL f next (firstL f (first f s n).2 ns).1).2 h
    obtain ⟨s2', h3, h4⟩ := ih2 (first f s n).2 s1' next h2
    refine ⟨s2', ?_, h4⟩
    rw [firstL_append, h1, withoutEmptyL_append]
    simp only [h3]

mutual
/-- No two texts among children of the same node without an element between them. -/
def Apart (f : DomFuncs) : Node → Prop
  | .elem n _ cs => f.isPre n = false → ApartL f false cs
  | _ => True
def ApartL (f : DomFuncs) (after : Bool) : List Node → Prop
  | [] => True
  | .text _ :: ns => after = false ∧ ApartL f true ns
  | .elem n a cs :: ns => Apart f (.elem n a cs) ∧ ApartL f false ns
  | _ :: ns => ApartL f after ns
end

/-- Where a text may come, a leading space is kept only if there is no text before. -/
def Inv (after : Bool) (s : Vars) : Prop := after = false → s.keep = true → s.prev = none

theorem inv_visit (f : DomFuncs) (s : Vars) (n : Bytes) (b : Bool) : Inv b (visit f s n) := by
  intro _ hk
  rw [visit] at hk ⊢
  split
  · rfl
  · rename_i h1
    rw [if_neg h1] at hk
    split
    · rfl
    · rename_i h2
      rw [if_neg h2] at hk
      cases hp : s.prev with
      | none => simp [hp]
      | some x => simp [hp] at hk

/-- How the second part sees what follows, the first and the second time. -/
def Rel (s : Vars) (a b : Next) : Prop := a = b ∨ (a = .other ∧ s.prev ≠ some true)

theorem rel_before {f : DomFuncs} {s : Vars} {a b : Next} (n : Bytes) (h : Rel (visit f s n) a b) : Rel s (before f a n) (before f b n) := by
  rw [before, before]
  split
  · exact .inl rfl
  · rename_i h1
    split
    · exact .inl rfl
    · rename_i h2
      rw [visit, if_neg h1, if_neg h2] at h
      rcases h with h | ⟨h, h3⟩
      · exact .inl h
      · refine .inr ⟨h, ?_⟩
        split at h3 <;> exact h3

theorem prev_one {t : Bytes} (h0 : t ≠ []) (h : trimSuffix t = []) : t = [SP] := by
  rw [trimSuffix] at h
  split at h
  · rename_i hl
    rw [List.getLast?_eq_some_iff] at hl
    obtain ⟨ys, rfl⟩ := hl
    simp at h
    simp [h]
  · exact absurd h h0

/-- The second part on its own result. -/
theorem second_again (f : DomFuncs) :
    (∀ n, ∀ s next next' b, Inv b s → ApartL f b [n] → Rel (first f s n).2 next next' →
      ∃ nx', secondL f next' (withoutEmptyL f.isPre (secondL f next (first f s n).1).1) =
          (withoutEmptyL f.isPre (secondL f next (first f s n).1).1, nx') ∧
        Rel s (secondL f next (first f s n).1).2 nx') ∧
    (∀ ns, ∀ s next next' b, Inv b s → ApartL f b ns → Rel (firstL f s ns).2 next next' →
      ∃ nx', secondL f next' (withoutEmptyL f.isPre (secondL f next (firstL f s ns).1).1) =
          (withoutEmptyL f.isPre (secondL f next (firstL f s ns).1).1, nx') ∧
        Rel s (secondL f next (firstL f s ns).1).2 nx') := by
  apply induct
  · intro d s next next' b hi ha h
    rw [first] at h ⊢
    rcases firstText_cases s d with h1 | ⟨t, h1, h0, ht, hh⟩
    · rw [h1] at h ⊢
      exact ⟨next', rfl, h⟩
    · rw [h1] at h ⊢
      have hb : b = false := ha.1
      have hlast := ht.trimSuffix_last
      have key : trimSuffix t = [] → s.prev ≠ some true := by
        intro h2
        have := prev_one h0 h2
        subst this
        rcases hh rfl with h3 | h3
        · rw [h3]; simp
        · rw [hi hb h3]; simp
      have one : ∀ nx : Next, trimSuffix t ≠ [] → second f nx (.text (trimSuffix t)) = ([.text (trimSuffix t)], .other) := by
        intro nx h2
        cases nx <;> simp [second, trimSuffix_id hlast, h2]
      simp only [secondL_one]
      cases next with
      | other =>
        simp only [second]
        refine ⟨.other, ?_, .inl rfl⟩
        have he : withoutEmptyL f.isPre [Node.text t] = [Node.text t] := by simp [withoutEmptyL, isEmptyTextNode, h0, withoutEmpty]
        rw [he, secondL_one]
        cases next' with
        | other => rfl
        | block =>
          rcases h with h | ⟨_, h⟩
          · simp at h
          · rw [second, trimSuffix_id (by simpa using h)]
        | stop =>
          rcases h with h | ⟨_, h⟩
          · simp at h
          · rw [second, trimSuffix_id (by simpa using h)]; simp [h0]
      | block =>
        have hn : next' = .block := by rcases h with h | ⟨h, _⟩ <;> simp_all
        subst hn
        simp only [second]
        by_cases h2 : trimSuffix t = []
        · exact ⟨.block, by simp [withoutEmptyL, isEmptyTextNode, h2, secondL], .inr ⟨rfl, key h2⟩⟩
        · have he : withoutEmptyL f.isPre [Node.text (trimSuffix t)] = [Node.text (trimSuffix t)] := by
            simp [withoutEmptyL, isEmptyTextNode, h2, withoutEmpty]
          rw [he, secondL_one, one _ h2]
          exact ⟨.other, rfl, .inl rfl⟩
      | stop =>
        have hn : next' = .stop := by rcases h with h | ⟨h, _⟩ <;> simp_all
        subst hn
        simp only [second]
        by_cases h2 : trimSuffix t = []
        · exact ⟨.stop, by simp [withoutEmptyL, h2, secondL], .inr ⟨rfl, key h2⟩⟩
        · have he : withoutEmptyL f.isPre [Node.text (trimSuffix t)] = [Node.text (trimSuffix t)] := by
            simp [withoutEmptyL, isEmptyTextNode, h2, withoutEmpty]
          simp only [h2, if_false]
          rw [he, secondL_one, one _ h2]
          exact ⟨.other, rfl, .inl rfl⟩
  · intro d s next next' b hi ha h
    simp only [first, secondL_one, second] at h ⊢
    exact ⟨next', by simp [withoutEmptyL, isEmptyTextNode, withoutEmpty, secondL, second], h⟩
  · intro d s next next' b hi ha h
    exact ⟨next', rfl, h⟩
  · intro cs _ s next next' b hi ha h
    exact ⟨next', rfl, h⟩
  · intro n a cs ih s next next' b hi ha h
    rw [first] at h ⊢
    by_cases hp : f.isPre n = true
    · simp only [hp, if_true, secondL_one, second] at h ⊢
      refine ⟨before f next' n, ?_, rel_before n h⟩
      simp [withoutEmptyL, isEmptyTextNode, withoutEmpty, hp, secondL, second]
    · simp only [hp, Bool.false_eq_true, if_false, secondL_one, second] at h ⊢
      have hr := rel_before n h
      obtain ⟨nx', h1, h2⟩ := ih (visit f s n) (before f next n) (before f next' n) false (inv_visit f s n _)
        (ha.1 (by simpa using hp)) hr
      refine ⟨before f nx' n, ?_, rel_before n h2⟩
      simp [withoutEmptyL, isEmptyTextNode, withoutEmpty, hp, secondL, second, h1]
  · intro s next next' b _ _ h
    exact ⟨next', rfl, h⟩
  · intro n ns ih1 ih2 s next next' b hi ha h
    have hfst : ApartL f b [n] ∧ ∃ b', Inv b' (first f s n).2 ∧ ApartL f b' ns := by
      cases n with
      | text d => exact ⟨⟨ha.1, trivial⟩, true, fun h => by simp at h, ha.2⟩
      | comment d => exact ⟨trivial, b, hi, ha⟩
      | doctype d => exact ⟨trivial, b, hi, ha⟩
      | document cs => exact ⟨trivial, b, hi, ha⟩
      | elem m a cs =>
        refine ⟨⟨ha.1, trivial⟩, false, ?_, ha.2⟩
        rw [first]
        split <;> exact inv_visit _ _ _ _
    obtain ⟨hfst, b', hi', ha'⟩ := hfst
    simp only [firstL, secondL_append, withoutEmptyL_append] at h ⊢
    obtain ⟨nx1, h1, h2⟩ := ih2 (first f s n).2 next next' b' hi' ha' h
    obtain ⟨nx2, h3, h4⟩ := ih1 s _ nx1 b hi hfst h2
    refine ⟨nx2, ?_, h4⟩
    rw [h1]
    simp only [h3]

theorem children_again (f : DomFuncs) (cs : List Node) (h : ApartL f false cs) :
    children f (children f cs) = withoutEmptyL f.isPre (children f cs) := by
  obtain ⟨s1', h1, -⟩ := (first_again f).2 cs ⟨none, false⟩ ⟨none, false⟩ .stop (fun _ => rfl)
  obtain ⟨nx', h2, -⟩ := (second_again f).2 cs ⟨none, false⟩ .stop .stop false (fun _ h => by simp at h) h (.inl rfl)
  conv => lhs; rw [children]
  change (secondL f .stop (firstL f ⟨none, false⟩ (secondL f .stop (firstL f ⟨none, false⟩ cs).1).1).1).1 = _
  rw [h1]
  simp only
  rw [h2]
  rfl

end Verif.Collapse
