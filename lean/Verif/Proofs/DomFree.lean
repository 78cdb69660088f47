import Verif.Proofs.DomKind
/-!
# What is not inside of what, with elements that may contain everything
-/
set_option linter.unusedSimpArgs false

namespace Verif.Dom
open Verif Verif.DomUtils Verif.Spec Verif.Collapse

/-- The flag for the children of an element. -/
def flagIn (closed free : Bytes → Bool) (f : Bool) (n : Bytes) : Bool := !free n && (f || closed n)

mutual
/-- Like `Outside`, but below an element that is `free` everything is allowed again. -/
def Free (bad closed free : Bytes → Bool) (f : Bool) : Node → Prop
  | .elem n _ cs => (f = true → bad n = false) ∧ FreeL bad closed free (flagIn closed free f n) cs
  | .document cs => FreeL bad closed free f cs
  | _ => True
def FreeL (bad closed free : Bytes → Bool) (f : Bool) : List Node → Prop
  | [] => True
  | n :: ns => Free bad closed free f n ∧ FreeL bad closed free f ns
end

variable {bad closed free : Bytes → Bool}

theorem flagIn_mono {f g : Bool} (h : g = true → f = true) (n : Bytes) : flagIn closed free g n = true → flagIn closed free f n = true := by
  unfold flagIn
  cases f <;> cases g <;> simp_all

theorem free_mono : (∀ n, ∀ f g : Bool, (g = true → f = true) → Free bad closed free f n → Free bad closed free g n) ∧
    (∀ ns, ∀ f g : Bool, (g = true → f = true) → FreeL bad closed free f ns → FreeL bad closed free g ns) := by
  apply induct
  · intro d f g _ _; trivial
  · intro d f g _ _; trivial
  · intro d f g _ _; trivial
  · intro cs ih f g h hn; exact ih f g h hn
  · intro n a cs ih f g h hn
    exact ⟨fun hg => hn.1 (h hg), ih _ _ (flagIn_mono h n) hn.2⟩
  · intro f g _ _; trivial
  · intro n ns ih1 ih2 f g h hn; exact ⟨ih1 f g h hn.1, ih2 f g h hn.2⟩

theorem freeL_false {f : Bool} {ns : List Node} (h : FreeL bad closed free f ns) : FreeL bad closed free false ns :=
  free_mono.2 ns f false (by simp) h

theorem freeL_append (f : Bool) : ∀ a b : List Node, FreeL bad closed free f (a ++ b) ↔ FreeL bad closed free f a ∧ FreeL bad closed free f b
  | [], b => by simp [FreeL]
  | x :: a, b => by simp [FreeL, freeL_append f a b, and_assoc]

theorem outside_free : (∀ n, ∀ f, Outside bad closed f n → Free bad closed free f n) ∧ (∀ ns, ∀ f, OutsideL bad closed f ns → FreeL bad closed free f ns) := by
  apply induct
  · intro d f _; trivial
  · intro d f _; trivial
  · intro d f _; trivial
  · intro cs ih f h; exact ih f h
  · intro n a cs ih f h
    refine ⟨h.1, free_mono.2 cs _ _ ?_ (ih _ h.2)⟩
    unfold flagIn
    intro hh
    rw [Bool.and_eq_true] at hh
    exact hh.2
  · intro f _; trivial
  · intro n ns ih1 ih2 f h; exact ⟨ih1 f h.1, ih2 f h.2⟩

theorem redundantIn_outside (same : Bytes → Bytes → Bool) :
    (∀ n, ∀ f, Outside bad closed f n → ∀ anc, OutsideL bad closed f (removeRedundantIn same anc n)) ∧
    (∀ ns, ∀ f, OutsideL bad closed f ns → ∀ anc, OutsideL bad closed f (removeRedundantL same anc ns)) := by
  apply induct
  · intro d f h anc; exact ⟨h, trivial⟩
  · intro d f h anc; exact ⟨h, trivial⟩
  · intro d f h anc; exact ⟨h, trivial⟩
  · intro cs ih f h anc; exact ⟨ih f h _, trivial⟩
  · intro n a cs ih f h anc
    rw [removeRedundantIn]
    split
    · exact outside_mono.2 _ _ _ (by intro hf; simp [hf]) (ih _ h.2 _)
    · exact ⟨⟨h.1, ih _ h.2 _⟩, trivial⟩
  · intro f _ anc; trivial
  · intro n ns ih1 ih2 f h anc
    rw [removeRedundantL, outsideL_append]
    exact ⟨ih1 f h.1 anc, ih2 f h.2 anc⟩

theorem redundant_outside (same : Bytes → Bytes → Bool) (n : Node) (f : Bool) (h : Outside bad closed f n) :
    Outside bad closed f (removeRedundant same n) := by
  cases n with
  | elem n a cs => exact ⟨h.1, (redundantIn_outside same).2 cs _ h.2 _⟩
  | document cs => exact (redundantIn_outside same).2 cs _ h _
  | _ => exact h

theorem free_collect (m : Bytes → Bool) :
    (∀ n, ∀ f, Free bad closed free f n → FreeL bad closed free false (collectNode m n).moved ∧ FreeL bad closed free f (collectNode m n).left) ∧
    (∀ ns, ∀ f, FreeL bad closed free f ns → FreeL bad closed free false (collectL m ns).moved ∧ FreeL bad closed free f (collectL m ns).left) := by
  apply induct
  · intro d f h; exact ⟨trivial, h, trivial⟩
  · intro d f h; exact ⟨trivial, h, trivial⟩
  · intro d f h; exact ⟨trivial, h, trivial⟩
  · intro cs ih f h; exact ⟨trivial, h, trivial⟩
  · intro n a cs ih f h
    rw [collectNode]
    split
    · exact ⟨(ih _ h.2).1, ⟨h.1, (ih _ h.2).2⟩, trivial⟩
    · split
      · exact ⟨freeL_false h.2, trivial⟩
      · exact ⟨trivial, h, trivial⟩
  · intro f _; exact ⟨trivial, trivial⟩
  · intro n ns ih1 ih2 f h
    rw [collectL]
    simp only
    split
    · exact ⟨(freeL_append _ _ _).2 ⟨(ih1 f h.1).1, (ih2 f h.2).1⟩, (freeL_append _ _ _).2 ⟨(ih1 f h.1).2, (ih2 f h.2).2⟩⟩
    · exact ⟨(ih1 f h.1).1, (freeL_append _ _ _).2 ⟨(ih1 f h.1).2, h.2⟩⟩

/-- The same for what is still to be visited, with one flag for each level. -/
def FreeF (bad closed free : Bytes → Bool) : List Bool → List (List Node) → Prop
  | f :: fl, x :: xs => FreeL bad closed free f x ∧ FreeF bad closed free fl xs
  | _, [] => True
  | [], _ :: _ => False

theorem free_collectFrames (m : Bytes → Bool) : ∀ (fl : List Bool) (fs : List (List Node)), FreeF bad closed free fl fs →
    FreeL bad closed free false (collectFrames m fs).1 ∧ FreeF bad closed free fl (collectFrames m fs).2
  | fl, [], _ => by cases fl <;> exact ⟨trivial, trivial⟩
  | [], f :: fs, h => absurd h (by simp [FreeF])
  | b :: fl, f :: fs, h => by
    have h1 := (free_collect m).2 f b h.1
    have h2 := free_collectFrames m fl fs h.2
    rw [collectFrames]
    simp only
    split
    · exact ⟨(freeL_append _ _ _).2 ⟨h1.1, h2.1⟩, h1.2, h2.2⟩
    · exact ⟨h1.1, h1.2, h.2⟩

/-- The flag for the children of a node. -/
def flagOf (closed free : Bytes → Bool) (f : Bool) : Node → Bool
  | .elem n _ _ => flagIn closed free f n
  | _ => f

theorem free_children {f : Bool} {n : Node} (h : Free bad closed free f n) : FreeL bad closed free (flagOf closed free f n) n.children := by
  cases n with
  | elem n a cs => exact h.2
  | document cs => exact h
  | _ => trivial

theorem free_withChildren {f : Bool} {n : Node} (h : Free bad closed free f n) {ks : List Node} (hk : FreeL bad closed free (flagOf closed free f n) ks) :
    Free bad closed free f (withChildren n ks) := by
  cases n with
  | elem n a cs => exact ⟨h.1, hk⟩
  | document cs => exact hk
  | _ => trivial

theorem free_mergeF (m : Bytes → Bool) (hm : ∀ n, m n = true → free n = true) (hd : ∀ d : Bytes, (d = b!"#document" ∨ d = b!"#text" ∨ d = b!"#comment") → m d = false)
    (hdt : ∀ d, m (Node.doctype d).name = false) (fs : List (List Node)) :
    ∀ fl, FreeF bad closed free fl fs → FreeF bad closed free fl (mergeAdjacentF m fs) := by
  fun_induction mergeAdjacentF m fs with
  | case1 => intro fl h; exact h
  | case2 fs ih =>
    intro fl h
    cases fl with
    | nil => exact absurd h (by simp [FreeF])
    | cons b fl => exact ⟨trivial, ih fl h.2⟩
  | case3 n cs fs ks cs' fs' heq ih =>
    intro fl h
    cases fl with
    | nil => exact absurd h (by simp [FreeF])
    | cons b fl =>
      have h1 := h.1.1
      have hstep : FreeF bad closed free (flagOf closed free b n :: b :: fl) (mergeStep m n cs fs) := by
        rw [mergeStep]
        split
        · rename_i hmn
          rw [Bool.and_eq_true] at hmn
          have hc := free_collectFrames m (b :: fl) (cs :: fs) ⟨h.1.2, h.2⟩
          refine ⟨(freeL_append _ _ _).2 ⟨free_children h1, ?_⟩, hc.2⟩
          cases n with
          | elem n a k =>
            have := hm n hmn.1
            simp only [flagOf, flagIn, this]
            exact hc.1
          | document k => exact absurd hmn.1 (by rw [Node.name, hd _ (by simp)]; simp)
          | text d => exact absurd hmn.1 (by rw [Node.name, hd _ (by simp)]; simp)
          | comment d => exact absurd hmn.1 (by rw [Node.name, hd _ (by simp)]; simp)
          | doctype d => exact absurd hmn.1 (by rw [hdt]; simp)
        · exact ⟨free_children h1, h.1.2, h.2⟩
      have ih2 := ih _ hstep
      rw [heq] at ih2
      exact ⟨⟨free_withChildren h1 ih2.1, ih2.2.1⟩, ih2.2.2⟩
  | case4 n cs fs h ih => intro fl _; cases fl <;> trivial

theorem free_merge (m : Bytes → Bool) (hm : ∀ n, m n = true → free n = true) (hd : ∀ d : Bytes, (d = b!"#document" ∨ d = b!"#text" ∨ d = b!"#comment") → m d = false)
    (hdt : ∀ d, m (Node.doctype d).name = false) (n : Node) (f : Bool) (h : Free bad closed free f n) : Free bad closed free f (mergeAdjacent m n) := by
  obtain ⟨ks, hk⟩ := mergeAdjacentF_single m n
  have := free_mergeF m hm hd hdt [[n]] [f] ⟨⟨h, trivial⟩, trivial⟩
  rw [hk] at this
  rw [mergeAdjacent, hk]
  exact this.1.1

theorem first_free (f : DomFuncs) :
    (∀ n, ∀ o, Free bad closed free o n → ∀ s, FreeL bad closed free o (first f s n).1) ∧
    (∀ ns, ∀ o, FreeL bad closed free o ns → ∀ s, FreeL bad closed free o (firstL f s ns).1) := by
  apply induct
  · intro d o h s
    rw [first, firstText]
    have key : ∀ (t : Bytes) (v : Vars), FreeL bad closed free o (if t = [] then ([], s) else ([Node.text t], v)).1 := by
      intro t v
      split
      · trivial
      · exact ⟨trivial, trivial⟩
    apply key
  · intro d o h s; exact ⟨trivial, trivial⟩
  · intro d o h s; trivial
  · intro cs ih o h s; trivial
  · intro n a cs ih o h s
    rw [first]
    split
    · exact ⟨h, trivial⟩
    · exact ⟨⟨h.1, ih _ h.2 _⟩, trivial⟩
  · intro o _ s; trivial
  · intro n ns ih1 ih2 o h s
    rw [firstL]
    exact (freeL_append _ _ _).2 ⟨ih1 o h.1 s, ih2 o h.2 _⟩

theorem second_free (f : DomFuncs) :
    (∀ n, ∀ o, Free bad closed free o n → ∀ x, FreeL bad closed free o (second f x n).1) ∧
    (∀ ns, ∀ o, FreeL bad closed free o ns → ∀ x, FreeL bad closed free o (secondL f x ns).1) := by
  apply induct
  · intro d o h x
    cases x with
    | other => exact ⟨trivial, trivial⟩
    | block => exact ⟨trivial, trivial⟩
    | stop => rw [second]; split <;> simp [FreeL, Free]
  · intro d o h s; exact ⟨trivial, trivial⟩
  · intro d o h s; exact ⟨trivial, trivial⟩
  · intro cs ih o h x; exact ⟨h, trivial⟩
  · intro n a cs ih o h x
    rw [second]
    split
    · exact ⟨h, trivial⟩
    · exact ⟨⟨h.1, ih _ h.2 _⟩, trivial⟩
  · intro o _ x; trivial
  · intro n ns ih1 ih2 o h x
    rw [secondL]
    exact (freeL_append _ _ _).2 ⟨ih1 o h.1 _, ih2 o h.2 _⟩

theorem collapse_free (f : DomFuncs) (n : Node) (o : Bool) (h : Free bad closed free o n) : Free bad closed free o (collapse f n) := by
  cases n with
  | document cs =>
    rw [collapse]
    split
    · exact h
    · exact (second_free f).2 _ _ ((first_free f).2 _ _ h _) _
  | elem n a cs =>
    rw [collapse]
    split
    · exact h
    · exact ⟨h.1, (second_free f).2 _ _ ((first_free f).2 _ _ h.2 _) _⟩
  | _ => exact h

theorem listEnd_free : (∀ n, ∀ o, Free bad closed free o n → ∀ e, Free bad closed free o (addListEndIn e n)) ∧
    (∀ ns, ∀ o, FreeL bad closed free o ns → ∀ e, FreeL bad closed free o (addListEndL e ns)) := by
  apply induct
  · intro d o h e; exact h
  · intro d o h e; exact h
  · intro d o h e; exact h
  · intro cs ih o h e; exact ih o h _
  · intro n a cs ih o h e; exact ⟨h.1, ih _ h.2 _⟩
  · intro o _ e; trivial
  · intro n ns ih1 ih2 o h e
    rw [addListEndL]
    split
    · exact ⟨ih1 o h.1 _, trivial, ih2 o h.2 _⟩
    · exact ⟨ih1 o h.1 _, ih2 o h.2 _⟩

end Verif.Dom
