import Verif.Model.Concurrency
import Verif.Proofs.Engine
/-!
# Property C51: concurrent conversions
-/

namespace Verif.Props
open Verif Verif.Engine Verif.Concurrency

/-- A goroutine that has only compared sorted elements. -/
def Fine (s : List (Prio TagType)) : Pc → Prop
  | .outer _ => True
  | .less _ j => j < s.length
  | .less' _ j p => j < s.length ∧ ∀ x, s[j]? = some x → p = x.priority
  | .first => True
  | .done t => s.head?.map Prio.value = some t
  | _ => False

theorem fine_step {s : List (Prio TagType)} (hs : Ascending s) {pc pc' s'} (hf : Fine s pc) (h : step s pc = some (pc', s')) :
    s' = s ∧ Fine s pc' := by
  cases pc with
  | outer i =>
    simp only [step, Option.some.injEq, Prod.mk.injEq] at h
    obtain ⟨rfl, rfl⟩ := h
    refine ⟨rfl, ?_⟩
    split
    · assumption
    · trivial
  | less i j =>
    rw [step] at h
    split at h
    · simp only [Option.some.injEq, Prod.mk.injEq] at h
      obtain ⟨rfl, rfl⟩ := h
      exact ⟨rfl, trivial⟩
    · rw [Option.map_eq_some_iff] at h
      obtain ⟨x, hx, h⟩ := h
      simp only [Prod.mk.injEq] at h
      obtain ⟨rfl, rfl⟩ := h
      exact ⟨rfl, hf, fun y hy => by rw [hx] at hy; cases hy; rfl⟩
  | less' i j p =>
    rw [step, Option.map_eq_some_iff] at h
    obtain ⟨y, hy, h⟩ := h
    simp only [Prod.mk.injEq] at h
    obtain ⟨rfl, rfl⟩ := h
    refine ⟨rfl, ?_⟩
    obtain ⟨hj, hp⟩ := hf
    have e := hp s[j] (List.getElem?_eq_getElem hj)
    obtain ⟨hj', rfl⟩ := List.getElem?_eq_some_iff.mp hy
    have hle : s[j - 1].priority ≤ s[j].priority := by
      by_cases h0 : j = 0
      · subst h0; exact Int.le_refl _
      · exact List.pairwise_iff_getElem.mp hs (j - 1) j hj' hj (by omega)
    rw [if_neg (by omega)]
    trivial
  | first =>
    rw [step, Option.map_eq_some_iff] at h
    obtain ⟨y, hy, h⟩ := h
    simp only [Prod.mk.injEq] at h
    obtain ⟨rfl, rfl⟩ := h
    refine ⟨rfl, ?_⟩
    show s.head?.map Prio.value = some y.value
    rw [List.head?_eq_getElem?, hy]; rfl
  | done t => cases h
  | _ => exact hf.elim

/-- **C51** (partial): when the registrations of a tag are already in priority order, then for any number of goroutines
and every schedule the registrations stay as they are, and every goroutine that returns, returns the type of the first.
Registrations that are not in order are missing here: the property is false for them, see the counterexamples. -/
theorem c51_sorted_partial (registered : List (Prio TagType)) (hs : registered.Pairwise fun a b => a.priority ≤ b.priority)
    (n : Nat) (schedule : List Nat) :
    let c := (start registered n).runAll schedule
    c.shared = registered ∧ ∀ t, .done t ∈ c.threads → registered.head?.map Prio.value = some t := by
  have gen : ∀ (schedule : List Nat) (c : Config), c.shared = registered → (∀ pc ∈ c.threads, Fine registered pc) →
      (c.runAll schedule).shared = registered ∧ ∀ pc ∈ (c.runAll schedule).threads, Fine registered pc := by
    intro schedule
    induction schedule with
    | nil => intro c h1 h2; exact ⟨h1, h2⟩
    | cons k schedule ih =>
      intro c h1 h2
      rw [Config.runAll, List.foldl_cons]
      refine ih _ ?_ ?_
      all_goals
        rw [Config.run]
        split
        · assumption
        · rename_i pc hpc
          split
          · assumption
          · rename_i pc' s' hst
            rw [h1] at hst
            have := fine_step hs (h2 pc (List.mem_of_getElem? hpc)) hst
            first
              | exact this.1
              | intro q hq
                rcases List.mem_or_eq_of_mem_set hq with hq | rfl
                · exact h2 q hq
                · exact this.2
  have := gen schedule (start registered n) rfl (fun pc hpc => by
    rw [start, List.mem_replicate] at hpc
    rw [hpc.2]; trivial)
  exact ⟨this.1, fun t ht => this.2 _ ht⟩

/-- Two goroutines finish under some schedule. -/
example : ((start [⟨.remove, 100⟩, ⟨.block, 500⟩] 2).runAll [0, 1, 0, 0, 1, 0, 0, 1, 1, 1]).threads =
    [.done .remove, .done .remove] := by decide

/-- A schedule in which the sorts do not overlap gives the right answer for registrations that are not in order. -/
example : (start [⟨.block, 500⟩, ⟨.remove, 100⟩] 2).runAll (List.replicate 20 0 ++ List.replicate 20 1) =
    ⟨[⟨.remove, 100⟩, ⟨.block, 500⟩], [.done .remove, .done .remove]⟩ := by decide

/-- **C51** is false for registrations that are not in order: here `block` was registered with priority 500 and then
`remove` with priority 100.  One goroutine reads the slice while the other is in the middle of a swap, and gets `block`. -/
theorem c51_counterexample_read :
    ∃ schedule, ((start [⟨.block, 500⟩, ⟨.remove, 100⟩] 2).runAll schedule).threads =
      [.done .remove, .done .block] :=
  ⟨[0, 0, 0, 0, 0, 0, 1, 1, 1, 1, 1, 0, 0, 0, 0], by decide⟩

/-- **C51** is false for good: after this schedule both goroutines have returned and the registration with the highest
precedence is gone, so that every later conversion treats the tag as a block instead of removing it. -/
theorem c51_counterexample_lost :
    ∃ schedule, ((start [⟨.block, 500⟩, ⟨.remove, 100⟩] 2).runAll schedule) =
      ⟨[⟨.block, 500⟩, ⟨.block, 500⟩], [.done .block, .done .block]⟩ :=
  ⟨[0, 0, 0, 0, 1, 1, 1, 0, 0, 1, 1, 1, 0, 1, 0, 0, 0, 1, 1, 1], by decide⟩

/-- What the stock plugins register (`/repo/plugin/base/base.go:30-41`; the other plugins register no tag types). -/
def stockTagTypes : List (Op Unit) :=
  [b!"#comment", b!"head", b!"script", b!"style", b!"link", b!"meta", b!"iframe", b!"noscript", b!"input", b!"textarea"].map
    fun n => .tagType n .remove 500

/-- **C51**: with the stock plugins and no further tag types the registrations of every tag are in order, so that
`c51_sorted_partial` applies. -/
theorem c51_stock (name : Bytes) :
    ((applyAll ({} : Conv Unit) [.plugin b!"base" stockTagTypes none]).tagTypes name).Pairwise fun a b => a.priority ≤ b.priority := by
  have h : ∀ (l : List Bytes), (∀ x ∈ Spec.tagTypesOfAll name (l.map fun n => (.tagType n .remove 500 : Op Unit)), x.priority = 500) := by
    intro l
    induction l with
    | nil => simp [Spec.tagTypesOfAll]
    | cons n l ih =>
      intro x hx
      rw [List.map_cons, Spec.tagTypesOfAll, List.mem_append] at hx
      rcases hx with hx | hx
      · rw [Spec.tagTypesOf] at hx
        split at hx <;> simp_all
      · exact ih x hx
  rw [applyAll_tagTypes]
  have hall : ∀ x ∈ Spec.tagTypesOfAll name [(.plugin b!"base" stockTagTypes none : Op Unit)], x.priority = 500 := by
    intro x hx
    rw [Spec.tagTypesOfAll, Spec.tagTypesOfAll, List.append_nil, Spec.tagTypesOf, if_neg (by decide)] at hx
    exact h _ x hx
  rw [List.nil_append, List.pairwise_iff_getElem]
  intro i j hi hj _
  rw [hall _ (List.getElem_mem hi), hall _ (List.getElem_mem hj)]
  exact Int.le_refl _

/-- **C51**: when the registrations of every tag are in order, a conversion changes nothing in the converter: whatever
conversions run at the same time see the same converter. -/
theorem c51_read_only {V : Type} (S : GoSort) (T : NameTables) (c : Conv V)
    (hs : ∀ name, (c.tagTypes name).Pairwise fun a b => a.priority ≤ b.priority)
    (fuel : Nat) (ctx : Ctx V) (doc : Node) (r : Except Err Bytes × Conv V)
    (h : convertNode S T c fuel ctx doc = some r) : r.2 = c := by
  obtain ⟨h1, h2⟩ := convertNode_rel (sorted_closed S T) h
  rw [h1, h2 hs]

end Verif.Props
