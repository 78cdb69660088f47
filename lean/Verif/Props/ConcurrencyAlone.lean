import Verif.Props.Concurrency
/-!
# C51: goroutines one after the other, and what holds for every schedule
-/

namespace Verif.Props
open Verif Verif.Engine Verif.Concurrency

/-- `x` has the lowest priority number of the registrations, and was the first one registered with it. -/
def FirstInOrder (registered : List (Prio TagType)) (x : Prio TagType) : Prop :=
  ∃ before after, registered = before ++ x :: after ∧ (∀ y ∈ before, x.priority < y.priority) ∧ (∀ y ∈ after, x.priority ≤ y.priority)

/-! ### Every schedule: nothing is made up, no index is out of range, no goroutine hangs -/

/-- What holds for a goroutine whatever the others do; `n` is the length of the slice. -/
def Inside (P : Prio TagType → Prop) (n : Nat) : Pc → Prop
  | .outer i => i ≤ n
  | .less i j => j ≤ i ∧ i < n
  | .less' i j _ => 0 < j ∧ j ≤ i ∧ i < n
  | .swap i j => 0 < j ∧ j ≤ i ∧ i < n
  | .swap1 i j tmp => 0 < j ∧ j ≤ i ∧ i < n ∧ P tmp
  | .swap2 i j tmp v => 0 < j ∧ j ≤ i ∧ i < n ∧ P tmp ∧ P v
  | .swap3 i j tmp => 0 < j ∧ j ≤ i ∧ i < n ∧ P tmp
  | .first => True
  | .done t => ∃ x, P x ∧ x.value = t

/-- How many more steps a goroutine makes at most. -/
def left (n : Nat) : Pc → Nat
  | .outer i => (n - i) * (6 * n) + 2
  | .less i j => (n - i - 1) * (6 * n) + 2 + (6 * j + 1)
  | .less' i j _ => (n - i - 1) * (6 * n) + 2 + 6 * j
  | .swap i j => (n - i - 1) * (6 * n) + 2 + (6 * j - 1)
  | .swap1 i j _ => (n - i - 1) * (6 * n) + 2 + (6 * j - 2)
  | .swap2 i j _ _ => (n - i - 1) * (6 * n) + 2 + (6 * j - 3)
  | .swap3 i j _ => (n - i - 1) * (6 * n) + 2 + (6 * j - 4)
  | .first => 1
  | .done _ => 0

theorem inside_step {P : Prio TagType → Prop} {s : List (Prio TagType)} (hne : s ≠ []) (hs : ∀ x ∈ s, P x) {pc : Pc}
    (h : Inside P s.length pc) :
    (∃ t, pc = .done t) ∨
    ∃ pc' s', step s pc = some (pc', s') ∧ s'.length = s.length ∧ (∀ x ∈ s', P x) ∧ Inside P s.length pc' ∧ left s.length pc' < left s.length pc := by
  have hpos : 0 < s.length := List.length_pos_iff.2 hne
  have get : ∀ j, j < s.length → ∃ x, s[j]? = some x ∧ P x := fun j hj => ⟨s[j], List.getElem?_eq_getElem hj, hs _ (List.getElem_mem hj)⟩
  cases pc with
  | outer i =>
    right
    have h : i ≤ s.length := h
    refine ⟨_, _, rfl, rfl, hs, ?_, ?_⟩
    · split
      · rename_i hi; exact ⟨Nat.le_refl _, hi⟩
      · trivial
    · split
      · rename_i hi
        simp only [left]
        have e : s.length - i = s.length - i - 1 + 1 := by omega
        rw [e, Nat.add_mul, ← e]
        omega
      · simp only [left]; omega
  | less i j =>
    right
    obtain ⟨h1, h2⟩ := h
    by_cases hj : j = 0
    · refine ⟨.outer (i + 1), s, by rw [step, if_pos hj], rfl, hs, by show i + 1 ≤ _; omega, ?_⟩
      simp only [left]
      rw [show s.length - (i + 1) = s.length - i - 1 by omega]; omega
    · obtain ⟨x, hx, -⟩ := get j (by omega)
      refine ⟨.less' i j x.priority, s, by rw [step, if_neg hj, hx]; rfl, rfl, hs, ⟨by omega, h1, h2⟩, ?_⟩
      simp only [left]; omega
  | less' i j p =>
    right
    obtain ⟨h0, h1, h2⟩ := h
    obtain ⟨y, hy, -⟩ := get (j - 1) (by omega)
    refine ⟨_, _, by rw [step, hy]; rfl, rfl, hs, ?_, ?_⟩
    · split
      · exact ⟨h0, h1, h2⟩
      · show i + 1 ≤ _; omega
    · split
      · simp only [left]; omega
      · simp only [left]
        rw [show s.length - (i + 1) = s.length - i - 1 by omega]; omega
  | swap i j =>
    right
    obtain ⟨h0, h1, h2⟩ := h
    obtain ⟨y, hy, hp⟩ := get j (by omega)
    exact ⟨.swap1 i j y, s, by rw [step, hy]; rfl, rfl, hs, ⟨h0, h1, h2, hp⟩, by simp only [left]; omega⟩
  | swap1 i j tmp =>
    right
    obtain ⟨h0, h1, h2, h3⟩ := h
    obtain ⟨y, hy, hp⟩ := get (j - 1) (by omega)
    exact ⟨.swap2 i j tmp y, s, by rw [step, hy]; rfl, rfl, hs, ⟨h0, h1, h2, h3, hp⟩, by simp only [left]; omega⟩
  | swap2 i j tmp v =>
    right
    obtain ⟨h0, h1, h2, h3, h4⟩ := h
    refine ⟨_, _, rfl, by simp, ?_, ⟨h0, h1, h2, h3⟩, by simp only [left]; omega⟩
    intro x hx
    rcases List.mem_or_eq_of_mem_set hx with hx | rfl
    · exact hs x hx
    · exact h4
  | swap3 i j tmp =>
    right
    obtain ⟨h0, h1, h2, h3⟩ := h
    refine ⟨_, _, rfl, by simp, ?_, ⟨by omega, h2⟩, by simp only [left]; omega⟩
    intro x hx
    rcases List.mem_or_eq_of_mem_set hx with hx | rfl
    · exact hs x hx
    · exact h3
  | first =>
    right
    obtain ⟨y, hy, hp⟩ := get 0 hpos
    exact ⟨.done y.value, s, by rw [step, hy]; rfl, rfl, hs, ⟨y, hp, rfl⟩, by simp [left]⟩
  | done t => exact .inl ⟨t, rfl⟩

/-- A step of goroutine `k`: it has returned or its measure gets smaller; nothing happens to the others. -/
theorem run_inside {P : Prio TagType → Prop} {c : Config} (hne : c.shared ≠ []) (hs : ∀ x ∈ c.shared, P x)
    (h : ∀ pc ∈ c.threads, Inside P c.shared.length pc) (k : Nat) :
    (c.run k).shared.length = c.shared.length ∧ (∀ x ∈ (c.run k).shared, P x) ∧ (∀ pc ∈ (c.run k).threads, Inside P c.shared.length pc) ∧
    (∀ l, l ≠ k → (c.run k).threads[l]? = c.threads[l]?) ∧
    (∀ pc, c.threads[k]? = some pc → ∃ pc', (c.run k).threads[k]? = some pc' ∧ ((∃ t, pc = .done t ∧ pc' = .done t) ∨ left c.shared.length pc' < left c.shared.length pc)) := by
  rw [Config.run]
  cases hk : c.threads[k]? with
  | none => exact ⟨rfl, hs, h, fun _ _ => rfl, fun pc e => by cases e⟩
  | some pc =>
    rcases inside_step hne hs (h pc (List.mem_of_getElem? hk)) with ⟨t, rfl⟩ | ⟨pc', s', e, h1, h2, h3, h4⟩
    · dsimp only [step]
      exact ⟨rfl, hs, h, fun _ _ => rfl, fun pc e => ⟨pc, by rw [hk, e], .inl ⟨t, by cases e; rfl, by cases e; rfl⟩⟩⟩
    · dsimp only
      rw [e]
      dsimp only
      refine ⟨h1, h2, ?_, ?_, ?_⟩
      · intro q hq
        rcases List.mem_or_eq_of_mem_set hq with hq | rfl
        · exact h q hq
        · exact h3
      · intro l hl
        rw [List.getElem?_set_ne (by omega)]
      · intro q hq
        cases hq
        refine ⟨pc', ?_, .inr h4⟩
        obtain ⟨hlt, -⟩ := List.getElem?_eq_some_iff.1 hk
        rw [List.getElem?_set_self hlt]

theorem runAll_inside {P : Prio TagType → Prop} : ∀ (schedule : List Nat) {c : Config}, c.shared ≠ [] → (∀ x ∈ c.shared, P x) →
    (∀ pc ∈ c.threads, Inside P c.shared.length pc) →
    (c.runAll schedule).shared.length = c.shared.length ∧ (∀ x ∈ (c.runAll schedule).shared, P x) ∧
    (∀ pc ∈ (c.runAll schedule).threads, Inside P c.shared.length pc) ∧
    ∀ k pc, c.threads[k]? = some pc → ∃ pc', (c.runAll schedule).threads[k]? = some pc' ∧
      ((∃ t, pc' = .done t) ∨ left c.shared.length pc' + schedule.count k ≤ left c.shared.length pc)
  | [], c, _, hs, h => ⟨rfl, hs, h, fun k pc hk => ⟨pc, hk, .inr (by simp)⟩⟩
  | a :: schedule, c, hne, hs, h => by
    obtain ⟨h1, h2, h3, h4, h5⟩ := run_inside hne hs h a
    have hne' : (c.run a).shared ≠ [] := by
      rw [← List.length_pos_iff, h1]; exact List.length_pos_iff.2 hne
    obtain ⟨i1, i2, i3, i4⟩ := runAll_inside schedule hne' h2 (by rw [h1]; exact h3)
    rw [h1] at i1 i3 i4
    have e : c.runAll (a :: schedule) = (c.run a).runAll schedule := rfl
    rw [e]
    refine ⟨i1, i2, i3, ?_⟩
    intro k pc hk
    by_cases hka : k = a
    · subst hka
      obtain ⟨pc1, hpc1, hc⟩ := h5 pc hk
      obtain ⟨pc2, hpc2, hd⟩ := i4 k pc1 hpc1
      refine ⟨pc2, hpc2, ?_⟩
      rcases hd with hd | hd
      · exact .inl hd
      · rcases hc with ⟨t, rfl, rfl⟩ | hc
        · left
          have : left c.shared.length pc2 = 0 := by
            have e0 : left c.shared.length (.done t) = 0 := rfl
            omega
          cases pc2 with
          | done t => exact ⟨t, rfl⟩
          | _ => simp [left] at this
        · right
          rw [List.count_cons, if_pos (by simp)]
          omega
    · rw [← h4 k hka] at hk
      obtain ⟨pc2, hpc2, hd⟩ := i4 k pc hk
      refine ⟨pc2, hpc2, ?_⟩
      rcases hd with hd | hd
      · exact .inl hd
      · right
        have : (a == k) = false := by simpa using fun e : a = k => hka e.symm
        rw [List.count_cons, this]
        simpa using hd

/-- How many steps a goroutine makes at most for `n` registrations. -/
def stepsFor (n : Nat) : Nat := 6 * n * n + 2

/-- **C51** for every schedule, partial: whatever the other goroutines do, a goroutine that gets enough steps returns (it never reads outside of the slice), and
what it returns was registered.  That it returns the type of the first registration in order is missing: it is false, see the
counterexamples. -/
theorem c51_returns_registered_partial (registered : List (Prio TagType)) (hne : registered ≠ []) (n : Nat) (schedule : List Nat) (k : Nat) (hk : k < n)
    (hsteps : stepsFor registered.length ≤ schedule.count k) :
    ∃ x ∈ registered, ((start registered n).runAll schedule).threads[k]? = some (Pc.done x.value) := by
  have hpos : 0 < registered.length := List.length_pos_iff.2 hne
  obtain ⟨-, -, h3, h4⟩ := runAll_inside (P := (· ∈ registered)) schedule (c := start registered n) hne (fun x hx => hx) (by
    intro pc hpc
    rw [start, List.mem_replicate] at hpc
    rw [hpc.2]; exact hpos)
  obtain ⟨pc, hpc, hd⟩ := h4 k (.outer 1) (by simp [start, hk])
  have hdone : ∃ t, pc = .done t := by
    rcases hd with hd | hd
    · exact hd
    · exfalso
      have hl : (start registered n).shared.length = registered.length := rfl
      rw [hl] at hd
      have e1 : left registered.length (.outer 1) = (registered.length - 1) * (6 * registered.length) + 2 := rfl
      rw [e1] at hd
      have h6 : ∀ m, 0 < m → (m - 1) * (6 * m) < 6 * m * m := by
        intro m hm
        obtain ⟨m, rfl⟩ : ∃ m', m = m' + 1 := ⟨m - 1, by omega⟩
        simp only [Nat.add_sub_cancel]
        grind
      have := h6 _ hpos
      rw [stepsFor] at hsteps
      omega
  obtain ⟨t, rfl⟩ := hdone
  obtain ⟨x, hx, rfl⟩ := h3 _ (List.mem_of_getElem? hpc)
  exact ⟨x, hx, hpc⟩

/-! ### One goroutine after the other -/

/-- The same registrations, where those of the same priority are in the same order. -/
def SameEach (registered s : List (Prio TagType)) : Prop :=
  ∀ p : Int, s.filter (·.priority = p) = registered.filter (·.priority = p)

/-- In order, up to index `i`, but for element `j`, which may have to move to the front. -/
def UpTo (s : List (Prio TagType)) (i j : Nat) : Prop :=
  ∀ a b (hb : b < s.length) (hab : a < b), b ≤ i → b ≠ j → (s[a]'(Nat.lt_trans hab hb)).priority ≤ s[b].priority

/-- What holds for the slice and a goroutine that runs alone. -/
def Alone (registered : List (Prio TagType)) (s : List (Prio TagType)) : Pc → Prop
  | .outer i => SameEach registered s ∧ 0 < i ∧ UpTo s (i - 1) s.length
  | .less i j => SameEach registered s ∧ j ≤ i ∧ i < s.length ∧ UpTo s i j
  | .less' i j p => SameEach registered s ∧ UpTo s i j ∧ 0 < j ∧ j ≤ i ∧ i < s.length ∧ ∀ x, s[j]? = some x → p = x.priority
  | .swap i j => SameEach registered s ∧ UpTo s i j ∧ 0 < j ∧ j ≤ i ∧ i < s.length ∧ ∀ x y, s[j]? = some x → s[j - 1]? = some y → x.priority < y.priority
  | .swap1 i j tmp => SameEach registered s ∧ UpTo s i j ∧ 0 < j ∧ j ≤ i ∧ i < s.length ∧ s[j]? = some tmp ∧
      ∀ y, s[j - 1]? = some y → tmp.priority < y.priority
  | .swap2 i j tmp v => SameEach registered s ∧ UpTo s i j ∧ 0 < j ∧ j ≤ i ∧ i < s.length ∧ s[j]? = some tmp ∧ s[j - 1]? = some v ∧
      tmp.priority < v.priority
  | .swap3 i j tmp => ∃ s0 v, SameEach registered s0 ∧ UpTo s0 i j ∧ 0 < j ∧ j ≤ i ∧ i < s0.length ∧ s0[j]? = some tmp ∧ s0[j - 1]? = some v ∧
      tmp.priority < v.priority ∧ s = s0.set j v
  | .first => SameEach registered s ∧ UpTo s (s.length - 1) s.length
  | .done t => SameEach registered s ∧ UpTo s (s.length - 1) s.length ∧ s.head?.map Prio.value = some t

/-- Two neighbours that are exchanged. -/
theorem split_at : ∀ {s : List (Prio TagType)} {j : Nat} {x y : Prio TagType}, s[j + 1]? = some x → s[j]? = some y →
    ∃ l r, l.length = j ∧ s = l ++ y :: x :: r ∧ (s.set (j + 1) y).set j x = l ++ x :: y :: r
  | [], _, _, _, h, _ => by simp at h
  | [_], j, _, _, h, _ => by simp at h
  | a :: b :: s, 0, x, y, h1, h2 => by
    simp only [List.getElem?_cons_succ, List.getElem?_cons_zero, Option.some.injEq] at h1 h2
    subst h1 h2
    exact ⟨[], s, rfl, rfl, rfl⟩
  | a :: b :: s, j + 1, x, y, h1, h2 => by
    rw [List.getElem?_cons_succ] at h1 h2
    obtain ⟨l, r, h3, h4, h5⟩ := split_at h1 h2
    refine ⟨a :: l, r, by simp [h3], by rw [h4]; rfl, ?_⟩
    rw [List.set_cons_succ, List.set_cons_succ, h5]; rfl

theorem sameEach_swap {registered l r : List (Prio TagType)} {x y : Prio TagType} (hxy : x.priority ≠ y.priority)
    (h : SameEach registered (l ++ y :: x :: r)) : SameEach registered (l ++ x :: y :: r) := by
  intro p
  rw [← h p]
  simp only [List.filter_append, List.filter_cons]
  congr 1
  by_cases h1 : x.priority = p
  · have h2 : y.priority ≠ p := fun e => hxy (h1.trans e.symm)
    simp [h1, h2]
  · simp [h1]

theorem alone_step {registered s : List (Prio TagType)} {pc pc' : Pc} {s' : List (Prio TagType)} (h : Alone registered s pc)
    (e : step s pc = some (pc', s')) : Alone registered s' pc' := by
  cases pc with
  | outer i =>
    simp only [step, Option.some.injEq, Prod.mk.injEq] at e
    obtain ⟨rfl, rfl⟩ := e
    obtain ⟨h1, h2, h3⟩ := h
    split
    · rename_i hi
      exact ⟨h1, Nat.le_refl _, hi, fun a b hb hab hbi hbj => h3 a b hb hab (by omega) (by omega)⟩
    · exact ⟨h1, fun a b hb hab hbi hbj => h3 a b hb hab (by omega) hbj⟩
  | less i j =>
    obtain ⟨h1, h2, h3, h4⟩ := h
    rw [step] at e
    by_cases hj : j = 0
    · rw [if_pos hj] at e
      cases e
      exact ⟨h1, by omega, fun a b hb hab hbi hbj => h4 a b hb hab hbi (by omega)⟩
    · rw [if_neg hj, Option.map_eq_some_iff] at e
      obtain ⟨x, hx, e⟩ := e
      cases e
      exact ⟨h1, h4, by omega, h2, h3, fun y hy => by rw [hx] at hy; cases hy; rfl⟩
  | less' i j p =>
    obtain ⟨h1, h2, h3, h4, h5, h6⟩ := h
    rw [step, Option.map_eq_some_iff] at e
    obtain ⟨y, hy, e⟩ := e
    simp only [Prod.mk.injEq] at e
    obtain ⟨rfl, rfl⟩ := e
    split
    · rename_i hlt
      refine ⟨h1, h2, h3, h4, h5, fun x y' hx hy' => ?_⟩
      rw [hy] at hy'; cases hy'
      rw [← h6 x hx]; exact hlt
    · rename_i hlt
      refine ⟨h1, by omega, fun a b hb hab hbi hbj => ?_⟩
      by_cases hbj' : b = j
      · subst hbj'
        have hp := h6 s[b] (List.getElem?_eq_getElem hb)
        obtain ⟨hj1, rfl⟩ := List.getElem?_eq_some_iff.1 hy
        by_cases ha : a = b - 1
        · subst ha; omega
        · have := h2 a (b - 1) hj1 (by omega) (by omega) (by omega)
          omega
      · exact h2 a b hb hab hbi hbj'
  | swap i j =>
    obtain ⟨h1, h2, h3, h4, h5, h6⟩ := h
    rw [step, Option.map_eq_some_iff] at e
    obtain ⟨x, hx, e⟩ := e
    cases e
    exact ⟨h1, h2, h3, h4, h5, hx, fun y hy => h6 x y hx hy⟩
  | swap1 i j tmp =>
    obtain ⟨h1, h2, h3, h4, h5, h6, h7⟩ := h
    rw [step, Option.map_eq_some_iff] at e
    obtain ⟨x, hx, e⟩ := e
    cases e
    exact ⟨h1, h2, h3, h4, h5, h6, hx, h7 x hx⟩
  | swap2 i j tmp v =>
    obtain ⟨h1, h2, h3, h4, h5, h6, h7, h8⟩ := h
    cases e
    exact ⟨s, v, h1, h2, h3, h4, h5, h6, h7, h8, rfl⟩
  | swap3 i j tmp =>
    obtain ⟨s0, v, h1, h2, h3, h4, h5, h6, h7, h8, rfl⟩ := h
    cases e
    obtain ⟨j, rfl⟩ : ∃ j', j = j' + 1 := ⟨j - 1, by omega⟩
    rw [Nat.add_sub_cancel] at h7 ⊢
    obtain ⟨l, r, hl, e0, e1⟩ := split_at h6 h7
    refine ⟨?_, by omega, by simpa using h5, ?_⟩
    · rw [e1]
      exact sameEach_swap (by omega) (e0 ▸ h1)
    · intro a b hb hab hbi hbj
      have hb' : b < s0.length := by simpa using hb
      obtain ⟨hj1, ej1⟩ := List.getElem?_eq_some_iff.1 h6
      obtain ⟨hj0, ej0⟩ := List.getElem?_eq_some_iff.1 h7
      have ha' : a < s0.length := by omega
      simp only [List.getElem_set]
      rw [if_neg (fun e : j = b => hbj e.symm)]
      by_cases hb1 : j + 1 = b
      · rw [if_pos hb1]
        by_cases ha : j = a
        · rw [if_pos ha]; omega
        · rw [if_neg ha, if_neg (by omega)]
          have := h2 a j hj0 (by omega) (by omega) (by omega)
          rw [ej0] at this; exact this
      · rw [if_neg hb1]
        by_cases ha : j = a
        · rw [if_pos ha]
          have := h2 (j + 1) b hb' (by omega) hbi (by omega)
          rw [ej1] at this; exact this
        · rw [if_neg ha]
          by_cases ha1 : j + 1 = a
          · rw [if_pos ha1]
            have := h2 j b hb' (by omega) hbi (by omega)
            rw [ej0] at this; exact this
          · rw [if_neg ha1]
            exact h2 a b hb' hab hbi (by omega)
  | first =>
    obtain ⟨h1, h2⟩ := h
    rw [step, Option.map_eq_some_iff] at e
    obtain ⟨x, hx, e⟩ := e
    cases e
    exact ⟨h1, h2, by rw [List.head?_eq_getElem?, hx]; rfl⟩
  | done t => cases e

theorem run_alone {registered : List (Prio TagType)} (k : Nat) {c : Config} {pc : Pc} (hk : c.threads[k]? = some pc)
    (h : Alone registered c.shared pc) : ∃ pc', (c.run k).threads[k]? = some pc' ∧ Alone registered (c.run k).shared pc' ∧
      ∀ l, l ≠ k → (c.run k).threads[l]? = c.threads[l]? := by
  rw [Config.run, hk]
  dsimp only
  cases e : step c.shared pc with
  | none => exact ⟨pc, hk, h, fun _ _ => rfl⟩
  | some q =>
    obtain ⟨pc', s'⟩ := q
    obtain ⟨hlt, -⟩ := List.getElem?_eq_some_iff.1 hk
    exact ⟨pc', by dsimp only; rw [List.getElem?_set_self hlt], alone_step h e, fun l hl => by dsimp only; rw [List.getElem?_set_ne (by omega)]⟩

theorem runs_alone {registered : List (Prio TagType)} (k : Nat) : ∀ (m : Nat) {c : Config} {pc : Pc}, c.threads[k]? = some pc →
    Alone registered c.shared pc → ∃ pc', (c.runAll (List.replicate m k)).threads[k]? = some pc' ∧
      Alone registered (c.runAll (List.replicate m k)).shared pc' ∧ ∀ l, l ≠ k → (c.runAll (List.replicate m k)).threads[l]? = c.threads[l]?
  | 0, c, pc, hk, h => ⟨pc, hk, h, fun _ _ => rfl⟩
  | m + 1, c, pc, hk, h => by
    obtain ⟨pc1, h1, h2, h3⟩ := run_alone k hk h
    obtain ⟨pc2, h4, h5, h6⟩ := runs_alone k m h1 h2
    refine ⟨pc2, h4, h5, fun l hl => ?_⟩
    exact (h6 l hl).trans (h3 l hl)

theorem sameEach_mem {registered s : List (Prio TagType)} (h : SameEach registered s) (x : Prio TagType) : x ∈ registered ↔ x ∈ s := by
  have := h x.priority
  constructor
  · intro hx
    have : x ∈ s.filter (·.priority = x.priority) := by rw [this, List.mem_filter]; simp [hx]
    exact (List.mem_filter.1 this).1
  · intro hx
    have : x ∈ registered.filter (·.priority = x.priority) := by rw [← this, List.mem_filter]; simp [hx]
    exact (List.mem_filter.1 this).1

theorem firstInOrder_head {registered s : List (Prio TagType)} {x : Prio TagType} (h : SameEach registered (x :: s))
    (hs : (x :: s).Pairwise fun a b => a.priority ≤ b.priority) : FirstInOrder registered x := by
  have hf := (h x.priority).symm
  rw [List.filter_cons, if_pos (by simp), List.filter_eq_cons_iff] at hf
  obtain ⟨l, r, e, h1, -, -⟩ := hf
  have hle : ∀ y ∈ registered, x.priority ≤ y.priority := by
    intro y hy
    rcases List.mem_cons.1 ((sameEach_mem h y).1 hy) with rfl | hy
    · exact Int.le_refl _
    · exact (List.pairwise_cons.1 hs).1 y hy
  refine ⟨l, r, e, fun y hy => ?_, fun y hy => hle y (by rw [e]; simp [hy])⟩
  have h2 := hle y (by rw [e]; simp [hy])
  have h3 := h1 y hy
  simp only [decide_eq_true_eq] at h3
  omega

theorem upTo_sorted {s : List (Prio TagType)} (h : UpTo s (s.length - 1) s.length) : s.Pairwise fun a b => a.priority ≤ b.priority := by
  rw [List.pairwise_iff_getElem]
  intro a b ha hb hab
  exact h a b hb hab (by omega) (by omega)

/-- Sorted, without any change of the order of registrations with the same priority. -/
structure InOrder (registered s : List (Prio TagType)) : Prop where
  sorted : s.Pairwise fun a b => a.priority ≤ b.priority
  same : ∀ p : Int, s.filter (·.priority = p) = registered.filter (·.priority = p)

/-- Between the runs of goroutines that do not overlap. -/
structure Between (registered : List (Prio TagType)) (c : Config) : Prop where
  same : SameEach registered c.shared
  threads : ∀ pc ∈ c.threads, pc = .outer 1 ∨ InOrder registered c.shared ∧ ∃ x, FirstInOrder registered x ∧ pc = .done x.value

theorem left_start {n : Nat} (hn : 0 < n) : left n (.outer 1) < stepsFor n := by
  obtain ⟨n, rfl⟩ : ∃ m, n = m + 1 := ⟨n - 1, by omega⟩
  simp only [left, stepsFor, Nat.add_sub_cancel]
  grind

theorem between_run {registered : List (Prio TagType)} (hne : registered ≠ []) {c : Config} (h : Between registered c) {k m : Nat} (hk : k < c.threads.length)
    (hlen : c.shared.length = registered.length) (hm : stepsFor registered.length ≤ m) :
    let c' := c.runAll (List.replicate m k)
    Between registered c' ∧ InOrder registered c'.shared ∧ c'.shared.length = registered.length ∧ c'.threads.length = c.threads.length ∧
      (∃ x, FirstInOrder registered x ∧ c'.threads[k]? = some (Pc.done x.value)) ∧ ∀ l, l ≠ k → c'.threads[l]? = c.threads[l]? := by
  intro c'
  have hpos : 0 < c.shared.length := by rw [hlen]; exact List.length_pos_iff.2 hne
  have hget : c.threads[k]? = some c.threads[k] := List.getElem?_eq_getElem hk
  have hin : InOrder registered c'.shared ∧ c'.shared.length = registered.length ∧ c'.threads.length = c.threads.length ∧
      (∃ x, FirstInOrder registered x ∧ c'.threads[k]? = some (Pc.done x.value)) ∧ ∀ l, l ≠ k → c'.threads[l]? = c.threads[l]? := by
    rcases h.threads _ (List.getElem_mem hk) with hpc | ⟨hio, x, hx, hpc⟩
    · have hal : Alone registered c.shared (.outer 1) := ⟨h.same, by omega, fun a b hb hab hbi hbj => by omega⟩
      rw [hpc] at hget
      obtain ⟨pc', h1, h2, h3⟩ := runs_alone k m hget hal
      obtain ⟨i1, -, -, i4⟩ := runAll_inside (P := fun _ => True) (List.replicate m k) (List.length_pos_iff.1 hpos) (fun _ _ => trivial) (c := c) (by
        intro pc hpc
        rcases h.threads pc hpc with rfl | ⟨-, x, -, rfl⟩
        · exact hpos
        · exact ⟨x, trivial, rfl⟩)
      obtain ⟨pc2, h4, h5⟩ := i4 k _ hget
      have e : pc2 = pc' := by
        have : some pc2 = some pc' := h4.symm.trans h1
        cases this; rfl
      subst e
      have hdone : ∃ t, pc2 = .done t := by
        rcases h5 with h5 | h5
        · exact h5
        · rw [List.count_replicate_self, hlen] at h5
          have := left_start (n := registered.length) (by omega)
          omega
      obtain ⟨t, rfl⟩ := hdone
      obtain ⟨j1, j2, j3⟩ := h2
      have hs := upTo_sorted j2
      refine ⟨⟨hs, j1⟩, i1.trans hlen, ?_, ?_, h3⟩
      · have e0 : ∀ l, l ≠ k → (c'.threads[l]? = none ↔ c.threads[l]? = none) := fun l hl => by
          have := h3 l hl
          show (c.runAll (List.replicate m k)).threads[l]? = none ↔ _
          rw [this]
        have e1 : ∀ l, c'.threads.length ≤ l ↔ c.threads.length ≤ l := by
          intro l
          by_cases hl : l = k
          · subst hl
            have : l < c'.threads.length := (List.getElem?_eq_some_iff.1 h1).1
            omega
          · have := e0 l hl
            rw [List.getElem?_eq_none_iff, List.getElem?_eq_none_iff] at this
            exact this
        have := e1 c.threads.length
        have := e1 c'.threads.length
        omega
      · have e0 : c.runAll (List.replicate m k) = c' := rfl
        rw [e0] at j1 j3 hs h1
        cases hsh : c'.shared with
        | nil => rw [hsh] at j3; cases j3
        | cons x s =>
          rw [hsh] at j1 j3 hs
          simp only [List.head?_cons, Option.map_some, Option.some.injEq] at j3
          exact ⟨x, firstInOrder_head j1 hs, by rw [h1, j3]⟩
    · have e : ∀ m, c.runAll (List.replicate m k) = c := by
        intro m
        induction m with
        | zero => rfl
        | succ m ih =>
          have e1 : c.run k = c := by rw [Config.run, hget, hpc]; rfl
          have e2 : c.runAll (List.replicate (m + 1) k) = (c.run k).runAll (List.replicate m k) := rfl
          rw [e2, e1, ih]
      have e' : c' = c := e m
      rw [e']
      exact ⟨hio, hlen, rfl, ⟨x, hx, by rw [hget, hpc]⟩, fun _ _ => rfl⟩
  obtain ⟨h1, h2, h3, ⟨x, hx, h4⟩, h5⟩ := hin
  refine ⟨⟨h1.same, ?_⟩, h1, h2, h3, ⟨x, hx, h4⟩, h5⟩
  intro pc hpc
  obtain ⟨l, hl, rfl⟩ := List.getElem_of_mem hpc
  by_cases hlk : l = k
  · subst hlk
    right
    refine ⟨h1, x, hx, ?_⟩
    rw [List.getElem?_eq_getElem hl] at h4
    exact Option.some.inj h4
  · have h6 := h5 l hlk
    rw [List.getElem?_eq_getElem hl, List.getElem?_eq_getElem (by omega)] at h6
    rw [Option.some.inj h6]
    rcases h.threads _ (List.getElem_mem (by omega : l < c.threads.length)) with h7 | ⟨-, y, hy, h7⟩
    · exact .inl h7
    · exact .inr ⟨h1, y, hy, h7⟩

/-- **C51** for goroutines that do not overlap, partial: however many there are and in which order they run, each one returns the type of the registration with the lowest priority number,
the first of these if there are several, and afterwards the registrations are in order.  For goroutines that do overlap it is
missing: it is false, see the counterexamples. -/
theorem c51_one_after_the_other_partial (registered : List (Prio TagType)) (hne : registered ≠ []) (n : Nat) (order : List Nat) (ho : ∀ k ∈ order, k < n)
    {steps : Nat} (hsteps : stepsFor registered.length ≤ steps) :
    let c := (start registered n).runAll (order.flatMap (List.replicate steps))
    (order ≠ [] → InOrder registered c.shared) ∧ ∀ k ∈ order, ∃ x, FirstInOrder registered x ∧ c.threads[k]? = some (Pc.done x.value) := by
  have gen : ∀ (order : List Nat) (c : Config), (∀ k ∈ order, k < c.threads.length) → Between registered c → c.shared.length = registered.length →
      (order ≠ [] → InOrder registered (c.runAll (order.flatMap (List.replicate steps))).shared) ∧
      (∀ k ∈ order, ∃ x, FirstInOrder registered x ∧ (c.runAll (order.flatMap (List.replicate steps))).threads[k]? = some (Pc.done x.value)) ∧
      (InOrder registered c.shared → InOrder registered (c.runAll (order.flatMap (List.replicate steps))).shared) ∧
      (∀ (k : Nat) x, FirstInOrder registered x → c.threads[k]? = some (Pc.done x.value) →
        ∃ x, FirstInOrder registered x ∧ (c.runAll (order.flatMap (List.replicate steps))).threads[k]? = some (Pc.done x.value)) := by
    intro order
    induction order with
    | nil => exact fun c _ _ _ => ⟨fun h => absurd rfl h, by simp, id, fun k x hx h => ⟨x, hx, h⟩⟩
    | cons k order ih =>
      intro c hk hb hl
      obtain ⟨b1, b2, b3, b4, ⟨x, hx, b5⟩, b6⟩ := between_run hne hb (hk k (by simp)) hl hsteps
      obtain ⟨i1, i2, i3, i4⟩ := ih (c.runAll (List.replicate steps k)) (fun l hl => by rw [b4]; exact hk l (by simp [hl])) b1 b3
      have e : c.runAll ((k :: order).flatMap (List.replicate steps)) =
          (c.runAll (List.replicate steps k)).runAll (order.flatMap (List.replicate steps)) := by
        rw [List.flatMap_cons]; exact List.foldl_append
      rw [e]
      refine ⟨fun _ => i3 b2, ?_, fun _ => i3 b2, ?_⟩
      · intro l hl
        rcases List.mem_cons.1 hl with rfl | hl
        · exact i4 l x hx b5
        · exact i2 l hl
      · intro l y hy hl
        by_cases hlk : l = k
        · subst hlk; exact i4 l x hx b5
        · exact i4 l y hy (by rw [b6 l hlk]; exact hl)
  obtain ⟨h1, h2, -, -⟩ := gen order (start registered n) (by simpa [start] using ho) ⟨fun _ => rfl, by
    intro pc hpc
    rw [start, List.mem_replicate] at hpc
    exact .inl hpc.2⟩ rfl
  exact ⟨h1, h2⟩

/-! ### Beside the theorems -/

/-- Two goroutines one after the other, with registrations that are not in order. -/
example : [(⟨.block, 500⟩ : Prio TagType), ⟨.remove, 100⟩] ≠ [] ∧ (∀ k ∈ [1, 0], k < 2) ∧ stepsFor 2 = 26 := by decide

/-- The one that is first in order. -/
example : FirstInOrder [⟨.block, 500⟩, ⟨.remove, 100⟩, ⟨.inline, 100⟩] ⟨.remove, 100⟩ :=
  ⟨[⟨.block, 500⟩], [⟨.inline, 100⟩], rfl, by decide, by decide⟩

end Verif.Props
