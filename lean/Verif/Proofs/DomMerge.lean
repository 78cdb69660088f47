import Verif.Proofs.DomBlocks
/-!
# Merging leaves no neighbours of the merged kind
-/

namespace Verif.Dom
open Verif Verif.DomUtils Verif.Spec

/-- The first of some siblings is not of the merged kind. -/
def headNot (m : Bytes → Bool) (l : List Node) : Prop := ∀ c ∈ l.head?, m c.name = false

/-- No two neighbours of the merged kind. -/
def NoAdjM (m : Bytes → Bool) : List Node → Prop
  | [] => True
  | n :: ns => (m n.name = true → headNot m ns) ∧ NoAdjM m ns

mutual
/-- The same everywhere in a tree. -/
def goodM (m : Bytes → Bool) : Node → Prop
  | .elem _ _ cs => NoAdjM m cs ∧ goodML m cs
  | .document cs => NoAdjM m cs ∧ goodML m cs
  | _ => True
def goodML (m : Bytes → Bool) : List Node → Prop
  | [] => True
  | n :: ns => goodM m n ∧ goodML m ns
end

/-- The frames after collecting or merging: where the first node was not of the merged kind it still is not. -/
def HeadsOK (m : Bytes → Bool) : List (List Node) → List (List Node) → Prop
  | [], [] => True
  | f :: fs, g :: gs => (headNot m f → headNot m g) ∧ HeadsOK m fs gs
  | _, _ => False

theorem HeadsOK.refl (m : Bytes → Bool) : ∀ fs, HeadsOK m fs fs
  | [] => trivial
  | _ :: fs => ⟨id, HeadsOK.refl m fs⟩

theorem HeadsOK.trans {m : Bytes → Bool} : ∀ {a b c : List (List Node)}, HeadsOK m a b → HeadsOK m b c → HeadsOK m a c
  | [], [], [], _, _ => trivial
  | [], [], _ :: _, _, h => h.elim
  | [], _ :: _, _, h, _ => h.elim
  | _ :: _, [], _, h, _ => h.elim
  | _ :: _, _ :: _, [], _, h => h.elim
  | _ :: _, _ :: _, _ :: _, h1, h2 => ⟨fun h => h2.1 (h1.1 h), HeadsOK.trans h1.2 h2.2⟩

theorem collectNode_left (m : Bytes → Bool) (hs : m b!"span" = false) (n : Node) :
    ((collectNode m n).left = [] ∧ (collectNode m n).goOn = true) ∨ ∃ x, (collectNode m n).left = [x] ∧ (m x.name = false ∨ x = n ∧ ∀ k a c, n ≠ .elem k a c) := by
  cases n with
  | elem k a c =>
    rw [collectNode]
    split
    · rename_i h
      exact .inr ⟨_, rfl, .inl (by simp only [Node.name, h]; exact hs)⟩
    split
    · exact .inl ⟨rfl, rfl⟩
    · rename_i h
      exact .inr ⟨_, rfl, .inl (by simpa [Node.name] using h)⟩
  | _ => exact .inr ⟨_, rfl, .inr ⟨rfl, by simp⟩⟩

theorem collectNode_left' (m : Bytes → Bool) (ok : MergeOK m) (n : Node) :
    ((collectNode m n).left = [] ∧ (collectNode m n).goOn = true) ∨ ∃ x, (collectNode m n).left = [x] ∧ m x.name = false := by
  rcases collectNode_left m ok.span n with h | ⟨x, h1, h2 | ⟨rfl, h2⟩⟩
  · exact .inl h
  · exact .inr ⟨x, h1, h2⟩
  · refine .inr ⟨x, h1, ?_⟩
    obtain ⟨_, o2, o3, o4, o5⟩ := ok
    cases x <;> simp_all [Node.name]

theorem collectL_head (m : Bytes → Bool) (ok : MergeOK m) : ∀ ns, headNot m (collectL m ns).left
  | [] => by simp [collectL, headNot]
  | n :: ns => by
    rw [collectL]
    simp only
    rcases collectNode_left' m ok n with ⟨h1, h2⟩ | ⟨x, h1, h2⟩
    · rw [h2, if_pos rfl, h1]
      exact collectL_head m ok ns
    · split
      · simp only [h1]
        intro c hc
        simp at hc
        subst hc; exact h2
      · simp only [h1]
        intro c hc
        simp at hc
        subst hc; exact h2

theorem collectFrames_heads (m : Bytes → Bool) (ok : MergeOK m) : ∀ fs, HeadsOK m fs (collectFrames m fs).2
  | [] => by simp [collectFrames, HeadsOK]
  | f :: fs => by
    rw [collectFrames]
    simp only
    split
    · exact ⟨fun _ => collectL_head m ok f, collectFrames_heads m ok fs⟩
    · exact ⟨fun _ => collectL_head m ok f, HeadsOK.refl m fs⟩

theorem withChildren_name (n : Node) (ks : List Node) : (withChildren n ks).name = n.name := by cases n <;> rfl

theorem withChildren_good {m : Bytes → Bool} (n : Node) {ks : List Node} (h : NoAdjM m ks ∧ goodML m ks) : goodM m (withChildren n ks) := by
  cases n <;> simp [withChildren, goodM, h]

theorem mergeF_good (m : Bytes → Bool) (ok : MergeOK m) (fs : List (List Node)) :
    HeadsOK m fs (mergeAdjacentF m fs) ∧ ∀ f ∈ mergeAdjacentF m fs, NoAdjM m f ∧ goodML m f := by
  fun_induction mergeAdjacentF m fs with
  | case1 => simp [HeadsOK]
  | case2 fs ih =>
    refine ⟨⟨id, ih.1⟩, ?_⟩
    intro f hf
    rcases List.mem_cons.1 hf with rfl | hf
    · exact ⟨trivial, trivial⟩
    · exact ih.2 f hf
  | case3 n cs fs ks cs' fs' heq ih =>
    rw [heq] at ih
    obtain ⟨ih1, ih2⟩ := ih
    have hks := ih2 ks (by simp)
    have hcs := ih2 cs' (by simp)
    have key : (m n.name = true → headNot m cs') ∧ HeadsOK m fs fs' := by
      rw [mergeStep] at ih1
      split at ih1
      · have hc := collectFrames_heads m ok (cs :: fs)
        have hh : headNot m ((collectFrames m (cs :: fs)).2.headD []) := by
          rw [collectFrames]
          simp only
          split
          · exact collectL_head m ok cs
          · exact collectL_head m ok cs
        simp only at ih1
        generalize (collectFrames m (cs :: fs)).2 = r at *
        cases r with
        | nil => exact hc.elim
        | cons r1 r2 => exact ⟨fun _ => ih1.2.1 hh, hc.2.trans ih1.2.2⟩
      · rename_i hm
        refine ⟨fun hn => ih1.2.1 ?_, ih1.2.2⟩
        rw [hn] at hm
        cases cs with
        | nil => simp [headNot]
        | cons c cs => simp at hm
    refine ⟨⟨?_, key.2⟩, ?_⟩
    · intro h c hc
      simp at hc
      subst hc
      rw [withChildren_name]
      exact h n rfl
    · intro f hf
      rcases List.mem_cons.1 hf with rfl | hf
      · exact ⟨⟨by rw [withChildren_name]; exact key.1, hcs.1⟩, withChildren_good n hks, hcs.2⟩
      · exact ih2 f (by simp [hf])
  | case4 n cs fs h ih =>
    exfalso
    have hl := mergeAdjacentF_length m (mergeStep m n cs fs)
    rw [mergeStep_length] at hl
    rcases hr : mergeAdjacentF m (mergeStep m n cs fs) with _ | ⟨a, _ | ⟨b, l⟩⟩
    · rw [hr] at hl; simp at hl
    · rw [hr] at hl; simp at hl
    · exact absurd hr (h a b l)

theorem mergeAdjacent_good (m : Bytes → Bool) (ok : MergeOK m) (n : Node) : goodM m (mergeAdjacent m n) := by
  obtain ⟨ks, hk⟩ := mergeAdjacentF_single m n
  have := (mergeF_good m ok [[n]]).2
  rw [hk] at this
  rw [mergeAdjacent, hk]
  exact (this [withChildren n ks] (by simp)).2.1

theorem goodM_nodes (m : Bytes → Bool) : (∀ n, goodM m n → ∀ x ∈ nodes n, NoAdjM m x.children) ∧
    (∀ ns, goodML m ns → ∀ x ∈ nodesL ns, NoAdjM m x.children) := by
  apply induct
  · intro d _ x hx; simp [nodes] at hx; subst hx; trivial
  · intro d _ x hx; simp [nodes] at hx; subst hx; trivial
  · intro d _ x hx; simp [nodes] at hx; subst hx; trivial
  · intro cs ih h x hx
    rw [nodes, List.mem_cons] at hx
    rcases hx with rfl | hx
    · exact h.1
    · exact ih h.2 x hx
  · intro n a cs ih h x hx
    rw [nodes, List.mem_cons] at hx
    rcases hx with rfl | hx
    · exact h.1
    · exact ih h.2 x hx
  · intro _ x hx; simp [nodesL] at hx
  · intro n ns ih1 ih2 h x hx
    rw [nodesL, List.mem_append] at hx
    rcases hx with hx | hx
    · exact ih1 h.1 x hx
    · exact ih2 h.2 x hx

theorem noAdjM_split (m : Bytes → Bool) {l : List Node} (h : NoAdjM m l) {pre post : List Node} {a b : Node} (he : l = pre ++ a :: b :: post)
    (ha : m a.name = true) : m b.name = false := by
  subst he
  induction pre with
  | nil => exact h.1 ha b rfl
  | cons p pre ih => exact ih h.2

end Verif.Dom
