import Verif.Spec.Selectors
import Verif.Proofs.DomText
/-!
# Lemmas about the selectors of the command line tool
-/
set_option linter.unusedSimpArgs false

namespace Verif.CliDom
open Verif Verif.Spec Verif.Dom Verif.DomUtils

variable {sel : Selector}

theorem trail_child (f : Frame) (up : List Frame) (c : Node) : trail (f :: up, c) = (f :: up, c) :: trail (up, f.fill c) := rfl

/-- The trail of a node below contains the trail of the node. -/
theorem trail_below : (∀ n, ∀ up, ∀ p ∈ places up n, trail (up, n) <:+ trail p) ∧
    (∀ cs, ∀ up parent before, ∀ p ∈ placesL up parent before cs, trail (up, withChildren parent (before ++ cs)) <:+ ancestors p.1 p.2) := by
  apply induct
  · intro d up p hp; simp [places] at hp; subst hp; exact List.suffix_refl _
  · intro d up p hp; simp [places] at hp; subst hp; exact List.suffix_refl _
  · intro d up p hp; simp [places] at hp; subst hp; exact List.suffix_refl _
  · intro cs ih up p hp
    rw [places] at hp
    rcases List.mem_cons.1 hp with rfl | hp
    · exact List.suffix_refl _
    · exact (ih up (.document []) [] p hp).trans (List.suffix_cons _ _)
  · intro n a cs ih up p hp
    rw [places] at hp
    rcases List.mem_cons.1 hp with rfl | hp
    · exact List.suffix_refl _
    · exact (ih up (.elem n a []) [] p hp).trans (List.suffix_cons _ _)
  · intro up parent before p hp; simp [placesL] at hp
  · intro c cs ih1 ih2 up parent before p hp
    rw [placesL] at hp
    rcases List.mem_append.1 hp with hp | hp
    · have := ih1 _ p hp
      rw [trail_child] at this
      rcases List.suffix_cons_iff.1 (show _ <:+ p :: ancestors p.1 p.2 from this) with h | h
      · injection h with h1 h2
        rw [← h2]
        exact List.suffix_refl _
      · exact (List.suffix_cons _ _).trans h
    · have := ih2 up parent (before ++ [c]) p hp
      simpa [List.append_assoc] using this

/-- Not excluded, and not inside of something that is. -/
def free (sel : Selector) (p : Place) : Bool := (trail p).all fun q => !hits sel q

theorem free_child (f : Frame) (up : List Frame) (c : Node) : free sel (f :: up, c) = (!sel (f :: up) c && free sel (up, f.fill c)) := by
  rw [free, trail_child, List.all_cons]; rfl

theorem not_free (n : Node) (up : List Frame) (h : sel up n = true) : (places up n).filter (free sel) = [] := by
  rw [List.filter_eq_nil_iff]
  intro p hp
  have := trail_below.1 n up p hp
  intro hf
  rw [free, List.all_eq_true] at hf
  have := hf (up, n) (this.subset (by simp [trail]))
  rw [hits, h] at this
  exact absurd this (by decide)

/-- The same surroundings, except for what follows. -/
def Sim (up up' : List Frame) : Prop := up.map (fun f => (f.parent, f.before)) = up'.map (fun f => (f.parent, f.before))

def names (up : List Frame) : List Bytes := up.map (·.parent.name)

def itemsO (anc : List Bytes) : Option Node → List Item
  | none => []
  | some n => items anc n

theorem free_self {up : List Frame} {n : Node} (hs : sel up n = false) (hf : (ancestors up n).all (fun q => !hits sel q) = true) : free sel (up, n) = true := by
  rw [free, trail, List.all_cons, hf, hits]; simp [hs]

theorem exclude_items (hsel : IgnoresFollowing sel) :
    (∀ n, ∀ up up', Sim up up' → (ancestors up n).all (fun q => !hits sel q) = true →
      itemsO (names up) (excludeIn sel up' n) = ((places up n).filter (free sel)).map itemOf) ∧
    (∀ cs, ∀ up up' parent before, Sim up up' → free sel (up, withChildren parent (before ++ cs)) = true →
      itemsL (parent.name :: names up) (excludeL sel up' parent before cs) = ((placesL up parent before cs).filter (free sel)).map itemOf) := by
  apply induct
  · intro d up up' hs hf
    rw [excludeIn]
    by_cases h : sel up (.text d) = true
    · rw [not_free _ _ h, if_pos (by rw [← hsel _ _ _ hs]; exact h)]; rfl
    · rw [if_neg (by rw [← hsel _ _ _ hs]; exact h), places, List.filter_cons, if_pos (free_self (by simpa using h) hf)]; rfl
  · intro d up up' hs hf
    rw [excludeIn]
    by_cases h : sel up (.comment d) = true
    · rw [not_free _ _ h, if_pos (by rw [← hsel _ _ _ hs]; exact h)]; rfl
    · rw [if_neg (by rw [← hsel _ _ _ hs]; exact h), places, List.filter_cons, if_pos (free_self (by simpa using h) hf)]; rfl
  · intro d up up' hs hf
    rw [excludeIn]
    by_cases h : sel up (.doctype d) = true
    · rw [not_free _ _ h, if_pos (by rw [← hsel _ _ _ hs]; exact h)]; rfl
    · rw [if_neg (by rw [← hsel _ _ _ hs]; exact h), places, List.filter_cons, if_pos (free_self (by simpa using h) hf)]; rfl
  · intro cs ih up up' hs hf
    rw [excludeIn]
    by_cases h : sel up (.document cs) = true
    · rw [not_free _ _ h, if_pos (by rw [← hsel _ _ _ hs]; exact h)]; rfl
    · have hfr : free sel (up, .document cs) = true := free_self (by simpa using h) hf
      have := ih up up' (.document []) [] hs hfr
      rw [if_neg (by rw [← hsel _ _ _ hs]; exact h), places, List.filter_cons, if_pos hfr, List.map_cons, ← this]; rfl
  · intro n a cs ih up up' hs hf
    rw [excludeIn]
    by_cases h : sel up (.elem n a cs) = true
    · rw [not_free _ _ h, if_pos (by rw [← hsel _ _ _ hs]; exact h)]; rfl
    · have hfr : free sel (up, .elem n a cs) = true := free_self (by simpa using h) hf
      have := ih up up' (.elem n a []) [] hs hfr
      rw [if_neg (by rw [← hsel _ _ _ hs]; exact h), places, List.filter_cons, if_pos hfr, List.map_cons, ← this]; rfl
  · intro up up' parent before hs hf; rfl
  · intro c cs ih1 ih2 up up' parent before hs hf
    have hrest := ih2 up up' parent (before ++ [c]) hs (by simpa [List.append_assoc] using hf)
    rw [excludeL, placesL, List.filter_append, List.map_append, ← hrest]
    have hc := ih1 (⟨parent, before, cs⟩ :: up) (⟨parent, before, excludeL sel up' parent (before ++ [c]) cs⟩ :: up')
      (by simp only [Sim, List.map_cons] at hs ⊢; rw [hs]) (by rw [← show free sel (up, _) = true from hf]; rfl)
    rw [← hc]
    cases excludeIn sel (⟨parent, before, excludeL sel up' parent (before ++ [c]) cs⟩ :: up') c with
    | none => rfl
    | some c' => rfl

/-- The same nodes around. -/
def Alike (up up' : List Frame) : Prop := up.map (fun f => whatOf f.parent) = up'.map (fun f => whatOf f.parent)

theorem exclude_none (hsel : OnlyLooksUp sel) :
    (∀ n, ∀ up up' m, Alike up up' → excludeIn sel up n = some m → ∀ p ∈ places up' m, hits sel p = false) ∧
    (∀ cs, ∀ up up' parent parent' before before', Alike up up' → whatOf parent = whatOf parent' →
      ∀ p ∈ placesL up' parent' before' (excludeL sel up parent before cs), hits sel p = false) := by
  apply induct
  · intro d up up' m hs hm p hp
    rw [excludeIn] at hm
    split at hm
    · simp at hm
    · rename_i h
      injection hm with hm; subst hm
      simp [places] at hp; subst hp
      rw [hits, ← hsel up up' (.text d) (.text d) hs rfl]; simpa using h
  · intro d up up' m hs hm p hp
    rw [excludeIn] at hm
    split at hm
    · simp at hm
    · rename_i h
      injection hm with hm; subst hm
      simp [places] at hp; subst hp
      rw [hits, ← hsel up up' (.comment d) (.comment d) hs rfl]; simpa using h
  · intro d up up' m hs hm p hp
    rw [excludeIn] at hm
    split at hm
    · simp at hm
    · rename_i h
      injection hm with hm; subst hm
      simp [places] at hp; subst hp
      rw [hits, ← hsel up up' (.doctype d) (.doctype d) hs rfl]; simpa using h
  · intro cs ih up up' m hs hm p hp
    rw [excludeIn] at hm
    split at hm
    · simp at hm
    · rename_i h
      injection hm with hm; subst hm
      rw [places] at hp
      rcases List.mem_cons.1 hp with rfl | hp
      · rw [hits]; refine (hsel up up' (.document cs) (.document (excludeL sel up (.document []) [] cs)) hs rfl).symm.trans ?_; simpa using h
      · exact ih up up' _ _ _ _ hs rfl p hp
  · intro n a cs ih up up' m hs hm p hp
    rw [excludeIn] at hm
    split at hm
    · simp at hm
    · rename_i h
      injection hm with hm; subst hm
      rw [places] at hp
      rcases List.mem_cons.1 hp with rfl | hp
      · rw [hits]; refine (hsel up up' (.elem n a cs) (.elem n a (excludeL sel up (.elem n a []) [] cs)) hs rfl).symm.trans ?_; simpa using h
      · exact ih up up' _ _ _ _ hs rfl p hp
  · intro up up' parent parent' before before' hs hw p hp; simp [excludeL, placesL] at hp
  · intro c cs ih1 ih2 up up' parent parent' before before' hs hw p hp
    rw [excludeL] at hp
    cases e : excludeIn sel (⟨parent, before, excludeL sel up parent (before ++ [c]) cs⟩ :: up) c with
    | none =>
      rw [e] at hp
      exact ih2 up up' parent parent' _ _ hs hw p hp
    | some c' =>
      rw [e] at hp
      simp only [placesL] at hp
      rcases List.mem_append.1 hp with hp | hp
      · refine ih1 _ _ c' ?_ e p hp
        simp only [Alike, List.map_cons] at hs ⊢
        rw [hs, hw]
      · exact ih2 up up' parent parent' _ _ hs hw p hp

/-! ## Including -/

theorem places_head (up : List Frame) (n : Node) : places up n = (up, n) :: (places up n).tail := by
  cases n <;> rfl

theorem placesL_cons (up : List Frame) (parent : Node) (before : List Node) (c : Node) (cs : List Node) :
    placesL up parent before (c :: cs) = (⟨parent, before, cs⟩ :: up, c) :: ((places (⟨parent, before, cs⟩ :: up) c).tail ++ placesL up parent (before ++ [c]) cs) := by
  rw [placesL, places_head, List.cons_append]; rfl

theorem pick_what (n : Node) (up : List Frame) : whatOf (pickIn sel up n).1 = whatOf n := by cases n <;> rfl

theorem pick_order : (∀ n, ∀ up, (pickIn sel up n).2.map whatOf = ((places up n).tail.filter (hits sel)).map fun p => whatOf p.2) ∧
    (∀ cs, ∀ up parent before, (pickL sel up parent before cs).2.map whatOf = ((placesL up parent before cs).filter (hits sel)).map fun p => whatOf p.2) := by
  apply induct
  · intro d up; rfl
  · intro d up; rfl
  · intro d up; rfl
  · intro cs ih up; exact ih _ _ _
  · intro n a cs ih up; exact ih _ _ _
  · intro up parent before; rfl
  · intro c cs ih1 ih2 up parent before
    rw [pickL, placesL_cons, List.filter_cons, List.filter_append]
    by_cases h : sel (⟨parent, before, cs⟩ :: up) c = true
    · rw [if_pos h, if_pos (by rw [hits]; exact h)]
      simp only [List.map_cons, List.map_append, List.cons_append, pick_what, ih1, ih2]
    · rw [if_neg h, if_neg (by rw [hits]; exact h)]
      simp only [List.map_append, ih1, ih2]

theorem pick_none : (∀ n, ∀ up, (∀ p ∈ (places up n).tail, hits sel p = false) → pickIn sel up n = (n, [])) ∧
    (∀ cs, ∀ up parent before, (∀ p ∈ placesL up parent before cs, hits sel p = false) → pickL sel up parent before cs = (cs, [])) := by
  apply induct
  · intro d up _; rfl
  · intro d up _; rfl
  · intro d up _; rfl
  · intro cs ih up h; rw [pickIn, ih up (.document []) [] h]
  · intro n a cs ih up h; rw [pickIn, ih up (.elem n a []) [] h]
  · intro up parent before _; rfl
  · intro c cs ih1 ih2 up parent before h
    rw [placesL, places_head] at h
    have hc : sel (⟨parent, before, cs⟩ :: up) c = false := h (_, c) (by simp)
    rw [pickL, ih1 _ (fun p hp => h p (by simp [hp])), ih2 up parent _ (fun p hp => h p (by simp [hp]))]
    simp [hc]

theorem pick_whole : (∀ n, ∀ up, (∀ p ∈ (places up n).tail, hits sel p = true → ∀ q ∈ ancestors p.1 p.2, up.length < q.1.length → hits sel q = false) →
      (pickIn sel up n).2 = ((places up n).tail.filter (hits sel)).map (·.2)) ∧
    (∀ cs, ∀ up parent before, (∀ p ∈ placesL up parent before cs, hits sel p = true → ∀ q ∈ ancestors p.1 p.2, up.length < q.1.length → hits sel q = false) →
      (pickL sel up parent before cs).2 = ((placesL up parent before cs).filter (hits sel)).map (·.2)) := by
  apply induct
  · intro d up _; rfl
  · intro d up _; rfl
  · intro d up _; rfl
  · intro cs ih up h; exact ih _ _ _ h
  · intro n a cs ih up h; exact ih _ _ _ h
  · intro up parent before _; rfl
  · intro c cs ih1 ih2 up parent before h
    have h2 := ih2 up parent (before ++ [c]) fun p hp => h p (by rw [placesL]; simp [hp])
    have hp1 : ∀ p ∈ places (⟨parent, before, cs⟩ :: up) c, hits sel p = true → ∀ q ∈ ancestors p.1 p.2, up.length < q.1.length → hits sel q = false :=
      fun p hp => h p (by rw [placesL]; simp [hp])
    rw [pickL, placesL_cons, List.filter_cons, List.filter_append]
    by_cases hc : sel (⟨parent, before, cs⟩ :: up) c = true
    · have hnone : ∀ p ∈ (places (⟨parent, before, cs⟩ :: up) c).tail, hits sel p = false := by
        intro p hp
        cases e : hits sel p with
        | false => rfl
        | true =>
          have hin : p ∈ places (⟨parent, before, cs⟩ :: up) c := by rw [places_head]; simp [hp]
          have hanc : ((⟨parent, before, cs⟩ :: up, c) : Place) ∈ ancestors p.1 p.2 := by
            cases c with
            | document ks => exact (trail_below.2 ks (⟨parent, before, cs⟩ :: up) (.document []) [] p hp).subset (by simp [trail, withChildren])
            | elem n a ks => exact (trail_below.2 ks (⟨parent, before, cs⟩ :: up) (.elem n a []) [] p hp).subset (by simp [trail, withChildren])
            | _ => simp [places] at hp
          have := hp1 p hin e _ hanc (by simp)
          rw [hits, hc] at this
          exact absurd this (by decide)
      rw [if_pos hc, if_pos (by rw [hits]; exact hc), pick_none.1 _ _ hnone]
      have : (places (⟨parent, before, cs⟩ :: up) c).tail.filter (hits sel) = [] := by
        rw [List.filter_eq_nil_iff]; intro p hp; rw [hnone p hp]; decide
      rw [this, h2]; simp
    · rw [if_neg hc, if_neg (by rw [hits]; exact hc)]
      have h1 := ih1 (⟨parent, before, cs⟩ :: up) fun p hp he q hq hl =>
        hp1 p (by rw [places_head]; simp [hp]) he q hq (by simp at hl; omega)
      rw [h1, h2]; simp

theorem pick_perm : (∀ n, ∀ up, (txts (pickIn sel up n).1 ++ txtsL (pickIn sel up n).2).Perm (txts n)) ∧
    (∀ cs, ∀ up parent before, (txtsL (pickL sel up parent before cs).1 ++ txtsL (pickL sel up parent before cs).2).Perm (txtsL cs)) := by
  have happ : ∀ a b : List Node, txtsL (a ++ b) = txtsL a ++ txtsL b := by
    intro a b
    induction a with
    | nil => rfl
    | cons x a ih => simp [txtsL, ih]
  apply induct
  · intro d up; simp [pickIn, txts, txtsL]
  · intro d up; simp [pickIn, txts, txtsL]
  · intro d up; simp [pickIn, txts, txtsL]
  · intro cs ih up; exact ih _ _ _
  · intro n a cs ih up; exact ih _ _ _
  · intro up parent before; simp [pickL, txtsL]
  · intro c cs ih1 ih2 up parent before
    have h1 := ih1 (⟨parent, before, cs⟩ :: up)
    have h2 := ih2 up parent (before ++ [c])
    rw [pickL, txtsL]
    generalize pickIn sel (⟨parent, before, cs⟩ :: up) c = r at *
    generalize pickL sel up parent (before ++ [c]) cs = rs at *
    split
    · simp only [txtsL, happ, List.cons_append]
      refine List.Perm.trans ?_ (h1.append h2)
      rw [← List.append_assoc, ← List.append_assoc]
      have := List.perm_append_comm (l₁ := txtsL rs.1) (l₂ := txts r.1 ++ txtsL r.2)
      have := this.append_right (txtsL rs.2)
      simpa [List.append_assoc] using this
    · simp only [txtsL, happ]
      refine List.Perm.trans ?_ (h1.append h2)
      have := List.perm_append_comm (l₁ := txtsL rs.1) (l₂ := txtsL r.2)
      have := (this.append_right (txtsL rs.2)).append_left (txts r.1)
      simpa [List.append_assoc] using this

/-- The texts of a tree with their places. -/
def textOf (p : Place) : Option Bytes := (whatOf p.2).text?

theorem places_txts : (∀ n, ∀ up, (places up n).filterMap textOf = txts n) ∧
    (∀ cs, ∀ up parent before, (placesL up parent before cs).filterMap textOf = txtsL cs) := by
  apply induct
  · intro d up; rfl
  · intro d up; rfl
  · intro d up; rfl
  · intro cs ih up; rw [places, List.filterMap_cons]; simpa [textOf, whatOf, What.text?, txts] using ih up (.document []) []
  · intro n a cs ih up; rw [places, List.filterMap_cons]; simpa [textOf, whatOf, What.text?, txts] using ih up (.elem n a []) []
  · intro up parent before; rfl
  · intro c cs ih1 ih2 up parent before
    rw [placesL, List.filterMap_append, ih1, ih2]; rfl

/-- In a matching node that is more than `k` levels deep. -/
def within (sel : Selector) (k : Nat) (p : Place) : Bool := (trail p).any fun q => decide (k < q.1.length) && hits sel q

theorem trail_length (up : List Frame) (n : Node) : ∀ q ∈ ancestors up n, q.1.length < up.length := by
  induction up generalizing n with
  | nil => intro q hq; simp [ancestors] at hq
  | cons f up ih =>
    intro q hq
    rw [ancestors] at hq
    rcases List.mem_cons.1 hq with rfl | hq
    · simp
    · have := ih _ q hq; simp; omega

theorem places_trail (up : List Frame) (n : Node) (p : Place) (hp : p ∈ (places up n)) : ∃ t, trail p = t ++ trail (up, n) ∧ ∀ q ∈ t, up.length < q.1.length := by
  obtain ⟨t, ht⟩ := trail_below.1 n up p hp
  refine ⟨t, ht.symm, ?_⟩
  -- the lengths along a trail go down by one
  have key : ∀ (up1 : List Frame) (m : Node) (t : List Place), t ++ trail (up, n) = trail (up1, m) → ∀ q ∈ t, up.length < q.1.length := by
    intro up1
    induction up1 with
    | nil =>
      intro m t h q hq
      cases t with
      | nil => simp at hq
      | cons x t =>
        have h' := congrArg List.length h
        simp [trail, ancestors] at h'
    | cons f up1 ih =>
      intro m t h q hq
      cases t with
      | nil => simp at hq
      | cons x t =>
        rw [List.cons_append, trail_child] at h
        injection h with h1 h2
        have hlen : up.length < (f :: up1).length := by
          have : (up, n) ∈ trail (up1, f.fill m) := by rw [← h2]; simp [trail]
          rw [trail] at this
          rcases List.mem_cons.1 this with e | e
          · have : up = up1 := congrArg Prod.fst e
            rw [this]; simp
          · have := trail_length _ _ _ e
            simp at this ⊢; omega
        rcases List.mem_cons.1 hq with rfl | hq
        · rw [h1]; exact hlen
        · exact ih _ t h2 q hq
  exact key p.1 p.2 t (by rw [← show trail p = trail (p.1, p.2) from rfl]; exact ht)

theorem within_other {up : List Frame} {c : Node} {f : Frame} {p : Place} (hp : p ∈ places (f :: up) c) :
    within sel up.length p = (within sel (up.length + 1) p || sel (f :: up) c) := by
  obtain ⟨t, ht, hl⟩ := places_trail _ _ p hp
  have h1 : ∀ k ≤ (f :: up).length, t.any (fun q => decide (k < q.1.length) && hits sel q) = t.any (hits sel) := by
    intro k hk
    have : ∀ q ∈ t, (decide (k < q.1.length) && hits sel q) = hits sel q := by
      intro q hq
      have := hl q hq
      simp [show k < q.1.length by omega]
    clear ht hl hp
    induction t with
    | nil => rfl
    | cons x t ih => rw [List.any_cons, List.any_cons, this x (by simp), ih fun q hq => this q (by simp [hq])]
  have h2 : ∀ k, up.length ≤ k → (trail (up, f.fill c)).any (fun q => decide (k < q.1.length) && hits sel q) = false := by
    intro k hk
    rw [List.any_eq_false]
    intro q hq
    rw [trail] at hq
    have : q.1.length ≤ up.length := by
      rcases List.mem_cons.1 hq with rfl | hq
      · exact Nat.le_refl _
      · exact Nat.le_of_lt (trail_length _ _ _ hq)
    simp [show ¬ k < q.1.length by omega]
  rw [within, within, ht, trail_child, List.any_append, List.any_append, List.any_cons, List.any_cons, h1 _ (by simp), h1 _ (by simp), h2 _ (Nat.le_refl _), h2 _ (by omega)]
  simp [hits]

theorem pick_texts : (∀ n, ∀ up, (txtsL (pickIn sel up n).2).Perm (((places up n).tail.filter (within sel up.length)).filterMap textOf)) ∧
    (∀ cs, ∀ up parent before, (txtsL (pickL sel up parent before cs).2).Perm (((placesL up parent before cs).filter (within sel up.length)).filterMap textOf)) := by
  have happ : ∀ a b : List Node, txtsL (a ++ b) = txtsL a ++ txtsL b := by
    intro a b
    induction a with
    | nil => rfl
    | cons x a ih => simp [txtsL, ih]
  apply induct
  · intro d up; exact List.Perm.refl _
  · intro d up; exact List.Perm.refl _
  · intro d up; exact List.Perm.refl _
  · intro cs ih up; exact ih _ _ _
  · intro n a cs ih up; exact ih _ _ _
  · intro up parent before; exact List.Perm.refl _
  · intro c cs ih1 ih2 up parent before
    have h1 := ih1 (⟨parent, before, cs⟩ :: up)
    have h2 := ih2 up parent (before ++ [c])
    have hp := (pick_perm (sel := sel)).1 c (⟨parent, before, cs⟩ :: up)
    rw [pickL, placesL, List.filter_append, List.filterMap_append]
    by_cases hc : sel (⟨parent, before, cs⟩ :: up) c = true
    · rw [if_pos hc]
      have e : (places (⟨parent, before, cs⟩ :: up) c).filter (within sel up.length) = places (⟨parent, before, cs⟩ :: up) c := by
        rw [List.filter_eq_self]
        intro p hpp
        rw [within_other hpp, hc, Bool.or_true]
      rw [e, places_txts.1]
      simp only [txtsL, happ, List.cons_append]
      exact List.Perm.trans (by rw [← List.append_assoc]) (hp.append h2)
    · rw [if_neg hc, happ]
      have e : (places (⟨parent, before, cs⟩ :: up) c).filter (within sel up.length) =
          (places (⟨parent, before, cs⟩ :: up) c).tail.filter (within sel (up.length + 1)) := by
        have e1 : (places (⟨parent, before, cs⟩ :: up) c).filter (within sel up.length) = (places (⟨parent, before, cs⟩ :: up) c).filter (within sel (up.length + 1)) := by
          apply List.filter_congr
          intro p hpp
          rw [within_other hpp]; simp [hc]
        rw [e1, places_head, List.filter_cons, if_neg]
        · rfl
        · rw [within, trail, List.any_cons]
          have : (ancestors (⟨parent, before, cs⟩ :: up) c).any (fun q => decide (up.length + 1 < q.1.length) && hits sel q) = false := by
            rw [List.any_eq_false]
            intro q hq
            have := trail_length _ _ _ hq
            simp at this
            simp [show ¬ up.length + 1 < q.1.length by omega]
          rw [this]; simp
      rw [e]
      exact h1.append h2

end Verif.CliDom
