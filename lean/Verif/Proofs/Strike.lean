import Verif.Props.DomMore
import Verif.Model.Render
/-!
# Deletions: no nesting after merging
-/

namespace Verif.Dom
open Verif Verif.DomUtils Verif.Spec

mutual
/-- No element of the kind `m` is inside of another one; `b`: there is one around this node. -/
def flat (m : Bytes → Bool) (b : Bool) : Node → Prop
  | .elem n _ cs => (m n = true → b = false) ∧ flatL m (b || m n) cs
  | .document cs => flatL m b cs
  | .text _ => True
  | .comment _ => True
  | .doctype _ => True
def flatL (m : Bytes → Bool) (b : Bool) : List Node → Prop
  | [] => True
  | n :: ns => flat m b n ∧ flatL m b ns
end

theorem flatL_append (m : Bytes → Bool) (b : Bool) (x y : List Node) : flatL m b (x ++ y) ↔ flatL m b x ∧ flatL m b y := by
  induction x with
  | nil => simp [flatL]
  | cons a x ih => simp [flatL, ih, and_assoc]

theorem flat_true (m : Bytes → Bool) : (∀ n, flat m true n → ∀ b, flat m b n) ∧ (∀ ns, flatL m true ns → ∀ b, flatL m b ns) := by
  apply induct
  · intros; trivial
  · intros; trivial
  · intros; trivial
  · intro cs ih h b; exact ih h b
  · intro n a cs ih h b
    rw [flat] at h ⊢
    refine ⟨fun hm => absurd (h.1 hm) (by simp), ?_⟩
    exact ih (by simpa using h.2) _
  · intros; trivial
  · intro n ns h1 h2 h b; exact ⟨h1 h.1 b, h2 h.2 b⟩

theorem flat_items {m : Bytes → Bool} (ok : MergeOK m) :
    (∀ n anc, flat m (anc.any m) n ↔ ∀ i ∈ items anc n, m i.what.name = true → ∀ a ∈ i.anc, m a = false) ∧
    (∀ ns anc, flatL m (anc.any m) ns ↔ ∀ i ∈ itemsL anc ns, m i.what.name = true → ∀ a ∈ i.anc, m a = false) := by
  apply induct
  · intro d anc; simp [flat, items, What.name, ok.text]
  · intro d anc; simp [flat, items, What.name, ok.comment]
  · intro d anc; simp [flat, items, What.name, ok.doctype]
  · intro cs ih anc
    have := ih (b!"#document" :: anc)
    rw [List.any_cons, ok.document, Bool.false_or] at this
    rw [flat, this, items]
    simp [What.name, ok.document]
  · intro n a cs ih anc
    have := ih (n :: anc)
    rw [List.any_cons, Bool.or_comm] at this
    rw [flat, this, items]
    simp [What.name]
  · intro anc; simp [flatL, itemsL]
  · intro n ns h1 h2 anc
    rw [flatL, h1, h2, itemsL]
    simp only [List.mem_append]
    exact ⟨fun h i hi => hi.elim (h.1 i) (h.2 i), fun h => ⟨fun i hi => h i (.inl hi), fun i hi => h i (.inr hi)⟩⟩

mutual
theorem collectNode_flat (m : Bytes → Bool) (b : Bool) (hs : m b!"span" = false) : ∀ n : Node, flat m b n →
    flatL m true (collectNode m n).moved ∧ flatL m b (collectNode m n).left
  | .elem n a ks => by
    intro h
    rw [collectNode]
    rw [flat] at h
    split
    · rename_i hn
      have hm : m n = false := by rw [hn]; exact hs
      obtain ⟨h1, h2⟩ := collectL_flat m (b || m n) hs ks h.2
      refine ⟨h1, ?_⟩
      simp only [flatL, flat, and_true]
      exact ⟨h.1, h2⟩
    · split
      · rename_i hm
        rw [hm] at h
        exact ⟨by simpa using h.2, trivial⟩
      · exact ⟨trivial, ⟨h, trivial⟩⟩
  | .document ks => fun h => ⟨by simp [collectNode, flatL], by simpa [collectNode, flatL] using h⟩
  | .text _ => by intro h; simp [collectNode, flatL, flat]
  | .comment _ => by intro h; simp [collectNode, flatL, flat]
  | .doctype _ => by intro h; simp [collectNode, flatL, flat]
theorem collectL_flat (m : Bytes → Bool) (b : Bool) (hs : m b!"span" = false) : ∀ ns : List Node, flatL m b ns →
    flatL m true (collectL m ns).moved ∧ flatL m b (collectL m ns).left
  | [] => by intro _; simp [collectL, flatL]
  | n :: ns => by
    intro h
    have h1 := collectNode_flat m b hs n h.1
    have h2 := collectL_flat m b hs ns h.2
    rw [collectL]
    simp only
    split
    · simp only [flatL_append]; exact ⟨⟨h1.1, h2.1⟩, h1.2, h2.2⟩
    · simp only [flatL_append]; exact ⟨h1.1, h1.2, h.2⟩
end

/-- What is still to be visited; for each frame, whether it is inside of an element of the kind `m`. -/
def FlatF (m : Bytes → Bool) : List Bool → List (List Node) → Prop
  | [], [] => True
  | b :: bs, f :: fs => flatL m b f ∧ FlatF m bs fs
  | _, _ => False

theorem collectFrames_flat (m : Bytes → Bool) (hs : m b!"span" = false) : ∀ (bs : List Bool) (fs : List (List Node)), FlatF m bs fs →
    flatL m true (collectFrames m fs).1 ∧ FlatF m bs (collectFrames m fs).2
  | [], [] => by intro _; simp [collectFrames, flatL, FlatF]
  | [], _ :: _ => fun h => h.elim
  | _ :: _, [] => fun h => h.elim
  | b :: bs, f :: fs => by
    intro h
    have h1 := collectL_flat m b hs f h.1
    have h2 := collectFrames_flat m hs bs fs h.2
    rw [collectFrames]
    simp only
    split
    · exact ⟨(flatL_append _ _ _ _).2 ⟨h1.1, h2.1⟩, h1.2, h2.2⟩
    · exact ⟨h1.1, h1.2, h.2⟩

theorem flat_children {m : Bytes → Bool} (ok : MergeOK m) {b : Bool} {n : Node} (h : flat m b n) : flatL m (b || m n.name) n.children := by
  cases n with
  | elem n a cs => exact h.2
  | document cs => simp only [Node.name, ok.document, Bool.or_false, Node.children]; exact h
  | _ => trivial

theorem flat_withChildren {m : Bytes → Bool} (ok : MergeOK m) {b : Bool} {n : Node} (h : flat m b n) {ks : List Node}
    (hk : flatL m (b || m n.name) ks) : flat m b (withChildren n ks) := by
  cases n with
  | elem n a cs => exact ⟨h.1, hk⟩
  | document cs => simp only [Node.name, ok.document, Bool.or_false] at hk; exact hk
  | _ => trivial

theorem mergeF_flat (m : Bytes → Bool) (ok : MergeOK m) (fs : List (List Node)) : ∀ bs, FlatF m bs fs → FlatF m bs (mergeAdjacentF m fs) := by
  fun_induction mergeAdjacentF m fs with
  | case1 => exact fun _ h => h
  | case2 fs ih =>
    intro bs h
    cases bs with
    | nil => exact h.elim
    | cons b bs => exact ⟨trivial, ih bs h.2⟩
  | case3 n cs fs ks cs' fs' heq ih =>
    intro bs h
    cases bs with
    | nil => exact h.elim
    | cons b bs =>
      obtain ⟨⟨hn, hc⟩, hf⟩ := h
      rw [heq] at ih
      have hch := flat_children ok hn
      have hstep : FlatF m ((b || m n.name) :: b :: bs) (mergeStep m n cs fs) := by
        rw [mergeStep]
        split
        · rename_i hm
          simp only [Bool.and_eq_true] at hm
          have := collectFrames_flat m ok.span (b :: bs) (cs :: fs) ⟨hc, hf⟩
          refine ⟨?_, this.2⟩
          rw [flatL_append]
          refine ⟨hch, ?_⟩
          rw [hm.1, Bool.or_true]
          exact this.1
        · exact ⟨hch, hc, hf⟩
      obtain ⟨h1, h2, h3⟩ := ih _ hstep
      exact ⟨⟨flat_withChildren ok hn h1, h2⟩, h3⟩
  | case4 n cs fs h ih =>
    exfalso
    have hl := mergeAdjacentF_length m (mergeStep m n cs fs)
    rw [mergeStep_length] at hl
    rcases hr : mergeAdjacentF m (mergeStep m n cs fs) with _ | ⟨a, _ | ⟨b, l⟩⟩
    · rw [hr] at hl; simp at hl
    · rw [hr] at hl; simp at hl
    · exact absurd hr (h a b l)

theorem mergeAdjacent_flat (m : Bytes → Bool) (ok : MergeOK m) (n : Node) (h : flat m false n) : flat m false (mergeAdjacent m n) := by
  obtain ⟨ks, hk⟩ := mergeAdjacentF_single m n
  have := mergeF_flat m ok [[n]] [false] ⟨⟨h, trivial⟩, trivial⟩
  rw [hk] at this
  rw [mergeAdjacent, hk]
  exact this.1.1

end Verif.Dom
