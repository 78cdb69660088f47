import Verif.Proofs.SizeHeading
import Verif.Props.RenderTables
/-!
# C97: the Markdown is not much longer than the page
-/

namespace Verif.Props
open Verif Verif.TextUtils Verif.Escape Verif.Commonmark Verif.Spec Verif.Render Verif.DomUtils Verif.Size

/-- The options for which the size is limited: addresses do not get arbitrarily long, and the delimiters have no newline and none of the private characters
that the library uses inside of code (the first byte of these is 239). -/
structure Limited (E : Env) (D : Nat) : Prop where
  addresses : ∀ u, (E.assemble u).length ≤ D * (u.length + 1)
  delimiters : ∀ d ∈ E.cfg.strongDelimiter :: E.cfg.emDelimiter :: E.strike.toList, 10 ∉ d ∧ 239 ∉ d

theorem unbroken_of {d : Bytes} (h : 10 ∉ d ∧ 239 ∉ d) : Unbroken d := by
  obtain ⟨h1, h2⟩ := h
  unfold Unbroken brk
  induction d with
  | nil => rfl
  | cons b d ih =>
    have hb : b ≠ 10 := fun e => h1 (by simp [e])
    have hb2 : b ≠ 239 := fun e => h2 (by simp [e])
    simp only [wt, isBrk]
    rw [if_neg (by simp [hb, hb2])]
    exact (Nat.zero_add _).trans (ih (fun hm => h1 (by simp [hm])) (fun hm => h2 (by simp [hm])))

/-- What one node may add, for these options. -/
def factor (E : Env) (D : Nat) : Nat :=
  (D + 30) + 2 * E.cfg.strongDelimiter.length + 2 * E.cfg.emDelimiter.length + 2 * (E.strike.getD []).length + (E.cfg.horizontalRule.length + 4) +
    (2 * (E.cfg.bulletListMarker.length + 44) + 2)

theorem optionsFit {E : Env} {D : Nat} (h : Limited E D) : OptionsFit E (factor E D) D where
  assemble := h.addresses
  address := by rw [factor]; omega
  strong := ⟨by rw [factor]; omega, unbroken_of (h.delimiters _ (by simp))⟩
  em := ⟨by rw [factor]; omega, unbroken_of (h.delimiters _ (by simp))⟩
  strike := by
    intro d hd
    refine ⟨?_, unbroken_of (h.delimiters _ (by simp [hd]))⟩
    rw [factor, hd, Option.getD_some]; omega
  rule := by rw [factor]; omega
  bullet := by rw [factor]; omega

theorem postRender_length (m : Mode) (hs : List Handler) (s : Bytes) : (postRender m hs s).length ≤ s.length := by
  rw [postRender, restoreCodeNewlines, postRenderTrimContent]
  exact Nat.le_trans (replaceAll_length_le (by decide) (by decide) _)
    (Nat.le_trans (unEscape_length _ _ _) (Nat.le_trans (trimmed_length _) (trimSpace_length s)))

theorem conversion_length {E : Env} {K : Consts} {D : Nat} (ho : OptionsFit E K.c D) (ht : ∀ y, TableFits E K y) {doc : Node} {md : Bytes}
    (h : convertNode E doc = some md) : md.length ≤ (levels K 2).B * 540 ^ (K.q + 1) * pageSize doc ^ (K.q + 1) := by
  rw [convertNode, Option.map_eq_some_iff] at h
  obtain ⟨out, h, rfl⟩ := h
  have hd := preRender_depth E doc
  have hf := ((render_fits (K := levels K 2) (by rw [levels_c]; exact ho)).1 _ (by
    intro y hy
    have := depth_mem.1 _ y hy
    exact ⟨(levels_fit ho ht 2 y).1, (levels_fit ho ht 2 y).2 (by omega)⟩) _ _ _ h).length
  have e : (levels K 2).q = K.q := rfl
  rw [e] at hf
  have h1 := Nat.pow_le_pow_left (size_preRender E doc) (K.q + 1)
  have h2 := Nat.mul_le_mul_left (levels K 2).B h1
  rw [Nat.mul_pow] at h2
  rw [Nat.mul_assoc]
  have := postRender_length E.mode (handlers E) out
  omega

/-- **C97**: for given options the length of the Markdown is at most a constant times the square of the size of the page, if the table plugin is not used. -/
theorem c97_size {E : Env} {D : Nat} (h : Limited E D) (ht : E.table = none) :
    ∃ K, ∀ doc md, convertNode E doc = some md → md.length ≤ K * pageSize doc ^ 2 :=
  ⟨_, fun _ _ hd => conversion_length (K := plain (factor E D)) (optionsFit h) (fun y n a cs _ _ cfg _ _ _ hE => by rw [ht] at hE; cases hE) hd⟩

/-- **C97** with the table plugin: the spans of the cells count for the size of the page. -/
theorem c97_size_tables {E : Env} {D : Nat} (h : Limited E D) :
    ∃ K, ∀ doc md, convertNode E doc = some md → md.length ≤ K * pageSize doc ^ 8 :=
  ⟨_, fun _ _ hd => conversion_length (K := withTables (factor E D)) (optionsFit h) (fun y => table_fits (optionsFit h) y) hd⟩

/-! ### Beside the theorems -/

/-- The default options of all four plugins are limited, with addresses as they are. -/
theorem fullEnv_limited : Limited fullEnv 1 := ⟨fun u => by show u.length ≤ _; omega, by decide⟩

example : Limited (demoEnv .smart) 1 ∧ (demoEnv .smart).table = none := ⟨⟨fun u => by show u.length ≤ _; omega, by decide⟩, rfl⟩

/-- The page of C64 with a table is converted, so the theorem says something about it; and its size. -/
example : (∃ md, convertNode fullEnv tablePage = some md) ∧ pageSize tablePage = 78 :=
  ⟨⟨_, tablePage_converted⟩, by decide⟩

end Verif.Props
