import Verif.Proofs.SizeTable
import Verif.Props.Strike
/-!
# Underlined headings: how deep headings can be nested, and what this means for the size
-/

namespace Verif.Size
open Verif Verif.TextUtils Verif.Escape Verif.Commonmark Verif.Spec Verif.Render Verif.DomUtils Verif.Dom

mutual
/-- How many headings may be around a node, counting itself. -/
def depth : Node → Nat
  | .elem n _ cs => (if isHeading n then 1 else 0) + depthL cs
  | .document cs => depthL cs
  | .text _ => 0
  | .comment _ => 0
  | .doctype _ => 0
/-- The same for several nodes. -/
def depthL : List Node → Nat
  | [] => 0
  | n :: ns => max (depth n) (depthL ns)
end

theorem depth_mem : (∀ n, ∀ y ∈ nodes n, depth y ≤ depth n) ∧ (∀ ns, ∀ y ∈ nodesL ns, depth y ≤ depthL ns) := by
  apply Dom.induct
  · intro d y hy; rw [nodes, List.mem_singleton] at hy; subst hy; omega
  · intro d y hy; rw [nodes, List.mem_singleton] at hy; subst hy; omega
  · intro d y hy; rw [nodes, List.mem_singleton] at hy; subst hy; omega
  · intro cs ih y hy
    rw [nodes] at hy
    rcases List.mem_cons.1 hy with rfl | hy
    · omega
    · have := ih y hy; simp only [depth]; omega
  · intro n a cs ih y hy
    rw [nodes] at hy
    rcases List.mem_cons.1 hy with rfl | hy
    · omega
    · have := ih y hy; simp only [depth]; omega
  · intro y hy; simp [nodesL] at hy
  · intro n ns ih1 ih2 y hy
    rw [nodesL, List.mem_append] at hy
    rcases hy with hy | hy
    · have := ih1 y hy; simp only [depthL]; omega
    · have := ih2 y hy; simp only [depthL]; omega

/-- One more for an element that may contain everything. -/
theorem depth_free {free : Bytes → Bool} (hf : ∀ n, free n = true → isHeading n = false) :
    (∀ n, ∀ f g : Bool, Free isHeading isHeading free f n → Free free free (fun _ => false) g n → depth n ≤ (if f then 0 else 1) + (if g then 0 else 1)) ∧
    (∀ ns, ∀ f g : Bool, FreeL isHeading isHeading free f ns → FreeL free free (fun _ => false) g ns → depthL ns ≤ (if f then 0 else 1) + (if g then 0 else 1)) := by
  apply Dom.induct
  · intro d f g _ _; simp [depth]
  · intro d f g _ _; simp [depth]
  · intro d f g _ _; simp [depth]
  · intro cs ih f g h1 h2; exact ih f g h1 h2
  · intro n a cs ih f g h1 h2
    have h := ih _ _ h1.2 h2.2
    have e1 := h1.1
    have e2 := h2.1
    have e3 := hf n
    rw [depth]
    unfold flagIn at h
    cases hn : free n <;> cases hh : isHeading n <;> cases f <;> cases g <;> simp_all <;> omega
  · intro f g _ _; simp [depthL]
  · intro n ns ih1 ih2 f g h1 h2
    have := ih1 f g h1.1 h2.1
    have := ih2 f g h1.2 h2.2
    rw [depthL]; omega

theorem free_weaken {bad closed bad' closed' free : Bytes → Bool} (hb : ∀ n, bad' n = true → bad n = true) (hc : ∀ n, closed' n = true → closed n = true) :
    (∀ n, ∀ f, Free bad closed free f n → Free bad' closed' free f n) ∧ (∀ ns, ∀ f, FreeL bad closed free f ns → FreeL bad' closed' free f ns) := by
  apply Dom.induct
  · intro d f _; trivial
  · intro d f _; trivial
  · intro d f _; trivial
  · intro cs ih f h; exact ih f h
  · intro n a cs ih f h
    refine ⟨?_, free_mono.2 cs _ _ ?_ (ih _ h.2)⟩
    · intro hf
      have h1 := h.1 hf
      have h2 := hb n
      cases hn : bad' n with
      | false => rfl
      | true => rw [h2 hn] at h1; cases h1
    · unfold flagIn
      have h2 := hc n
      cases hn : closed' n <;> cases f <;> cases free n <;> simp_all
  · intro f _; trivial
  · intro n ns ih1 ih2 f h; exact ⟨ih1 f h.1, ih2 f h.2⟩

/-- Before rendering, headings are at most two levels deep. -/
theorem preRender_depth (E : Env) (doc : Node) : depth (preRender E doc) ≤ 2 := by
  have hcl : ∀ free : Bytes → Bool, (∀ n, free n = true → isStrike n = true) → free b!"#document" = false := by
    intro free h
    cases e : free b!"#document" with
    | false => rfl
    | true => exact absurd (h _ e) (by decide)
  have o3 := handlePreRender_outside E.tables (preRenderRemove isRemoved doc)
  have key : ∃ free : Bytes → Bool, (∀ n, free n = true → isStrike n = true) ∧
      Free isBlockName isNarrow free false (strikePreRender E (handlePreRender E.tables (preRenderRemove isRemoved doc))) ∧
      Outside free free false (strikePreRender E (handlePreRender E.tables (preRenderRemove isRemoved doc))) := by
    generalize handlePreRender E.tables (preRenderRemove isRemoved doc) = d at *
    cases hs : E.strike.isSome with
    | true =>
      refine ⟨isStrike, fun _ h => h, ?_, ?_⟩
      · rw [strikePreRender, if_pos hs]
        refine free_merge isStrike (fun n hn => hn) ?_ (fun d => by rw [Node.name]; decide) _ false
          (outside_free.1 _ _ (redundant_outside bothStrike d false o3))
        rintro d (rfl | rfl | rfl) <;> decide
      · have := (outside_items (bad := isStrike) (closed := isStrike) (by decide)).1 (strikePreRender E d) []
        rw [List.any_nil] at this
        rw [this]
        intro i hi k a hk hb
        have h := Props.c78_no_nesting hs d i hi (by
          rw [hk, What.name]
          have := Props.isStrike_eq
          rw [this] at hb
          simpa using hb)
        rw [List.any_eq_false]
        intro x hx hxs
        rw [Props.isStrike_eq] at hxs
        exact h x hx (by simpa using hxs)
    | false =>
      refine ⟨fun _ => false, by simp, ?_, ?_⟩
      · rw [strikePreRender, if_neg (by simp [hs])]
        exact outside_free.1 _ _ o3
      · have := (outside_items (bad := fun _ => false) (closed := fun _ => false) rfl).1 (strikePreRender E d) []
        rw [List.any_nil] at this
        rw [this]
        intro i hi k a hk hb
        cases hb
  obtain ⟨free, hfree, k1, k2⟩ := key
  have hh : ∀ n, free n = true → isHeading n = false := by
    intro n hn
    have := hfree n hn
    simp only [isStrike, decide_eq_true_eq] at this
    rcases this with rfl | rfl | rfl <;> decide
  have hhead : ∀ n, isHeading n = true → isBlockName n = true ∧ isNarrow n = true := by
    intro n hn
    simp only [isHeading, decide_eq_true_eq] at hn
    rcases hn with rfl | rfl | rfl | rfl | rfl | rfl <;> decide
  have f1 := (free_weaken (bad' := isHeading) (closed' := isHeading) (fun n h => (hhead n h).1) (fun n h => (hhead n h).2)).1 _ _ k1
  have f2 := (outside_free (free := fun _ => false)).1 _ _ k2
  have g1 := collapse_free (Collapse.baseFuncs (Render.isBlock E)) _ _ f1
  have g2 := collapse_free (Collapse.baseFuncs (Render.isBlock E)) _ _ f2
  rw [preRender]
  split
  · exact (depth_free hh).1 _ _ _ g1 g2
  · exact (depth_free hh).1 _ _ _ (listEnd_free.1 _ _ g1 _) (listEnd_free.1 _ _ g2 _)

/-! ## What headings add -/

/-- The constants for one more level of underlined headings. -/
def underlined (K : Consts) : Consts :=
  ⟨K.c, K.A + (K.c + 8), (2 * K.B + 4 * K.A + 20 + K.c) + (K.c * (K.A + (K.c + 8)) + 2 * K.c), K.q, K.hq, by have := K.hA; omega, by omega⟩

theorem Fits.underlined {K : Consts} {w : Nat} {out : Bytes} (h : Fits K w out) : Fits (underlined K) w out := by
  refine ⟨Nat.le_trans h.brk (Nat.mul_le_mul_right _ ?_), Nat.le_trans h.length (Nat.mul_le_mul_right _ ?_)⟩
  · simp only [Size.underlined]; omega
  · simp only [Size.underlined]; omega

theorem heading_level {E : Env} {K : Consts} {D : Nat} (ho : OptionsFit E K.c D) {n : Bytes} {a : List (Bytes × Bytes)} {cs : List Node}
    (hin : ∀ y ∈ nodesL cs, TableFits E K y ∧ HeadingFits E K y) : ∀ link stuck content out,
    renderL E link stuck cs = some content → heading true (headingLevel n) content = some out → Fits (underlined K) (pageSize (.elem n a cs)) out := by
  intro link stuck content out h1 h2
  have hc := ((render_fits ho).2 cs hin link stuck).1 content h1
  have hs := heading_setext (headingLevel_le n) h2
  have hw : pageSizeL cs + 1 ≤ pageSize (.elem n a cs) := by simp only [pageSize]; omega
  generalize pageSize (.elem n a cs) = w at *
  have hp : 1 ≤ w ^ K.q := Nat.one_le_pow _ _ (by omega)
  have hp1 : 1 ≤ w ^ (K.q + 1) := Nat.one_le_pow _ _ (by omega)
  have q1 := Nat.mul_le_mul_left K.A (Nat.pow_le_pow_left (show pageSizeL cs ≤ w by omega) K.q)
  have q2 := Nat.mul_le_mul_left K.B (Nat.pow_le_pow_left (show pageSizeL cs ≤ w by omega) (K.q + 1))
  have q3 := Nat.mul_le_mul_left K.A (Nat.pow_le_pow_right (n := w) (by omega) (show K.q ≤ K.q + 1 by omega))
  have b1 := hc.brk
  have b2 := hc.length
  refine ⟨?_, ?_⟩
  · show brk out + K.c ≤ (K.A + (K.c + 8)) * w ^ K.q
    have := Nat.le_mul_of_pos_right (K.c + 8) hp
    rw [Nat.add_mul]; omega
  · show out.length + K.c ≤ ((2 * K.B + 4 * K.A + 20 + K.c) + (K.c * (K.A + (K.c + 8)) + 2 * K.c)) * w ^ (K.q + 1)
    have h5 := Nat.le_mul_of_pos_right (20 + K.c) hp1
    have e : (2 * K.B + 4 * K.A + 20 + K.c) * w ^ (K.q + 1) = 2 * (K.B * w ^ (K.q + 1)) + 4 * (K.A * w ^ (K.q + 1)) + (20 + K.c) * w ^ (K.q + 1) := by grind
    rw [Nat.add_mul, e]; omega

/-- The constants for so many levels of underlined headings. -/
def levels (K : Consts) : Nat → Consts
  | 0 => K
  | d + 1 => underlined (levels K d)

theorem levels_c (K : Consts) : ∀ d, (levels K d).c = K.c
  | 0 => rfl
  | d + 1 => levels_c K d

theorem levels_fit {E : Env} {K : Consts} {D : Nat} (ho : OptionsFit E K.c D) (ht : ∀ y, TableFits E K y) :
    ∀ d y, (TableFits E (levels K d) y) ∧ (depth y ≤ d → HeadingFits E (levels K d) y)
  | 0, y => by
    refine ⟨ht y, ?_⟩
    rintro hd n a cs rfl hn
    rw [depth, if_pos hn] at hd
    omega
  | d + 1, y => by
    refine ⟨?_, ?_⟩
    · intro n a cs hy hn cfg link stuck out hE h
      exact ((levels_fit ho ht d y).1 n a cs hy hn cfg link stuck out hE h).underlined
    · rintro hd n a cs rfl hn - link stuck content out h1 h2
      rw [depth, if_pos hn] at hd
      refine heading_level (by rw [levels_c]; exact ho) ?_ link stuck content out h1 h2
      intro z hz
      have hz' := depth_mem.2 cs z hz
      exact ⟨(levels_fit ho ht d z).1, (levels_fit ho ht d z).2 (by omega)⟩

end Verif.Size
