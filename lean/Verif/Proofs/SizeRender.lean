import Verif.Proofs.SizeParts
/-!
# The size of what rendering produces
-/

namespace Verif.Size
open Verif Verif.TextUtils Verif.Escape Verif.Commonmark Verif.Spec Verif.Render Verif.DomUtils

/-! ## Arithmetic -/

theorem pow_super (a b : Nat) {q : Nat} (hq : 1 ≤ q) : a ^ q + b ^ q ≤ (a + b) ^ q := by
  obtain ⟨k, rfl⟩ : ∃ k, q = k + 1 := ⟨q - 1, by omega⟩
  clear hq
  induction k with
  | zero => simp
  | succ k ih =>
    have h1 : a ^ (k + 1) * a ≤ a ^ (k + 1) * (a + b) := Nat.mul_le_mul_left _ (by omega)
    have h2 : b ^ (k + 1) * b ≤ b ^ (k + 1) * (a + b) := Nat.mul_le_mul_left _ (by omega)
    have h3 := Nat.mul_le_mul_right (a + b) ih
    rw [Nat.add_mul] at h3
    rw [Nat.pow_succ a, Nat.pow_succ b, Nat.pow_succ (a + b)]
    omega

theorem le_pow (a : Nat) {q : Nat} (hq : 1 ≤ q) : a ≤ a ^ q := by
  cases a with
  | zero => exact Nat.zero_le _
  | succ a => exact Nat.le_self_pow (by omega) _

theorem pow_own (S own : Nat) {q : Nat} (hq : 1 ≤ q) : S ^ q + own ≤ (S + own) ^ q := by
  have h1 := pow_super S own hq
  have h2 := le_pow own hq
  omega

theorem pow_own' (S own : Nat) {q : Nat} (hq : 1 ≤ q) (ho : 1 ≤ own) : S ^ (q + 1) + S ^ q + own ≤ (S + own) ^ (q + 1) := by
  have h1 := pow_own S own hq
  have h2 := Nat.mul_le_mul_right (S + own) h1
  rw [Nat.add_mul, Nat.mul_add, ← Nat.pow_succ, ← Nat.pow_succ] at h2
  simp only [Nat.succ_eq_add_one] at h2
  have h3 : S ^ q * 1 ≤ S ^ q * own := Nat.mul_le_mul_left _ ho
  have h4 : own * 1 ≤ own * (S + own) := Nat.mul_le_mul_left _ (by omega)
  omega

/-! ## Bounds -/

/-- The constants of a bound: `c` is what one node adds. -/
structure Consts where
  c : Nat
  A : Nat
  B : Nat
  q : Nat
  hq : 1 ≤ q
  hA : 2 * c ≤ A
  hB : c * A + 2 * c ≤ B

/-- What a node of size `w` may become. -/
structure Fits (K : Consts) (w : Nat) (out : Bytes) : Prop where
  brk : brk out + K.c ≤ K.A * w ^ K.q
  length : out.length + K.c ≤ K.B * w ^ (K.q + 1)

/-- What nodes of this size may become together. -/
structure FitsL (K : Consts) (w : Nat) (out : Bytes) : Prop where
  brk : brk out ≤ K.A * w ^ K.q
  length : out.length ≤ K.B * w ^ (K.q + 1)

theorem Consts.cB (K : Consts) : 2 * K.c ≤ K.B := by have := K.hB; omega

theorem Fits.core {K : Consts} {S own : Nat} (ho : 1 ≤ own) {out : Bytes} (h1 : Size.brk out ≤ K.A * S ^ K.q + K.c * own)
    (h2 : out.length ≤ K.B * S ^ (K.q + 1) + K.c * (K.A * S ^ K.q + own)) : Fits K (S + own) out := by
  have hc : K.c ≤ K.c * own := Nat.le_mul_of_pos_right _ ho
  refine ⟨?_, ?_⟩
  · have h3 := Nat.mul_le_mul_left K.A (pow_own S own K.hq)
    have h4 := Nat.mul_le_mul_right own K.hA
    rw [Nat.mul_add] at h3
    rw [Nat.mul_assoc] at h4
    omega
  · have h3 := Nat.mul_le_mul_left K.B (pow_own' S own K.hq ho)
    have h4 := Nat.mul_le_mul_right own K.cB
    have h5 : K.c * K.A ≤ K.B := by have := K.hB; omega
    have h6 := Nat.mul_le_mul_right (S ^ K.q) h5
    rw [Nat.mul_add, Nat.mul_add] at h3
    rw [Nat.mul_assoc] at h4 h6
    rw [Nat.mul_add] at h2
    omega

theorem Fits.leaf {K : Consts} {w : Nat} (hw : 1 ≤ w) {out : Bytes} (h : out.length ≤ K.c * w) : Fits K w out := by
  have hb := brk_le out
  have := Fits.core (K := K) (S := 0) hw (out := out) (by omega) (by
    have : K.c * w ≤ K.c * (K.A * 0 ^ K.q + w) := Nat.mul_le_mul_left _ (by omega)
    omega)
  simpa using this

theorem Fits.grow {K : Consts} {S own : Nat} (ho : 1 ≤ own) {s : Bytes} (hs : FitsL K S s) {f : Bytes → Bytes} (hf : Grows K.c f) :
    Fits K (S + own) (f s) := by
  have hc : K.c ≤ K.c * own := Nat.le_mul_of_pos_right _ ho
  refine Fits.core ho ?_ ?_
  · have := hf.brk s; have := hs.brk; omega
  · have h1 := hf.length s
    have h2 := hs.length
    have h3 : K.c * (Size.brk s + 1) ≤ K.c * (K.A * S ^ K.q + own) := Nat.mul_le_mul_left _ (by have := hs.brk; omega)
    omega

theorem FitsL.nil (K : Consts) : FitsL K 0 [] := ⟨by simp [Size.brk, wt], by simp⟩

theorem FitsL.cons {K : Consts} {w S : Nat} {a b : Bytes} (ha : Fits K w a) (hb : FitsL K S b) : FitsL K (w + S) (a ++ b) := by
  refine ⟨?_, ?_⟩
  · have h1 := Nat.mul_le_mul_left K.A (pow_super w S K.hq)
    have h2 := ha.brk
    have h3 := hb.brk
    rw [Nat.mul_add] at h1
    rw [brk_append]; omega
  · have h1 := Nat.mul_le_mul_left K.B (pow_super w S (q := K.q + 1) (by omega))
    have h2 := ha.length
    have h3 := hb.length
    rw [Nat.mul_add] at h1
    rw [List.length_append]; omega

/-- What each of the nodes may become. -/
structure FitsEach (K : Consts) (w : Nat) (outs : List Bytes) : Prop where
  brk : brks outs + K.c * outs.length ≤ K.A * w ^ K.q
  length : lens outs + K.c * outs.length ≤ K.B * w ^ (K.q + 1)

theorem FitsEach.nil (K : Consts) : FitsEach K 0 [] := ⟨by simp [brks], by simp [lens]⟩

theorem FitsEach.cons {K : Consts} {w S : Nat} {a : Bytes} {b : List Bytes} (ha : Fits K w a) (hb : FitsEach K S b) : FitsEach K (w + S) (a :: b) := by
  refine ⟨?_, ?_⟩
  · have h1 := Nat.mul_le_mul_left K.A (pow_super w S K.hq)
    have h2 := ha.brk
    have h3 := hb.brk
    rw [Nat.mul_add] at h1
    simp only [brks, List.length_cons, Nat.mul_add]; omega
  · have h1 := Nat.mul_le_mul_left K.B (pow_super w S (q := K.q + 1) (by omega))
    have h2 := ha.length
    have h3 := hb.length
    rw [Nat.mul_add] at h1
    simp only [lens, List.length_cons, Nat.mul_add]; omega

/-- The options, and the factor by which addresses may become longer, compared with the constant. -/
structure OptionsFit (E : Env) (c D : Nat) : Prop where
  assemble : ∀ u, (E.assemble u).length ≤ D * (u.length + 1)
  address : D + 30 ≤ c
  strong : 2 * E.cfg.strongDelimiter.length ≤ c ∧ Unbroken E.cfg.strongDelimiter
  em : 2 * E.cfg.emDelimiter.length ≤ c ∧ Unbroken E.cfg.emDelimiter
  strike : ∀ d, E.strike = some d → 2 * d.length ≤ c ∧ Unbroken d
  rule : E.cfg.horizontalRule.length + 4 ≤ c
  bullet : 2 * (E.cfg.bulletListMarker.length + 44) + 2 ≤ c

/-- Tables that are rendered as tables satisfy the bound. -/
def TableFits (E : Env) (K : Consts) (y : Node) : Prop :=
  ∀ n a cs, y = .elem n a cs → n = b!"table" → ∀ cfg link stuck out, E.table = some cfg →
    renderTable cfg (unEscapeContent E.mode (handlers E)) stuck (.elem n a cs) (fun p => renderAt E link (stuck || isProblematicParent n) p cs) = some (some out) →
    Fits K (pageSize y) out

/-- Underlined headings satisfy the bound. -/
def HeadingFits (E : Env) (K : Consts) (y : Node) : Prop :=
  ∀ n a cs, y = .elem n a cs → isHeading n = true → E.cfg.headingStyle = b!"setext" → ∀ link stuck content out,
    renderL E link stuck cs = some content → heading true (headingLevel n) content = some out → Fits K (pageSize y) out

theorem grows_fallback (E : Env) (name : Bytes) {c : Nat} (hc : 8 ≤ c) : Grows c (fallback E name) := by
  have h : fallback E name = fun s => if isBlock E name then b!"\n\n" ++ s ++ b!"\n\n" else s := rfl
  rw [h]
  split
  · exact grows_blocks hc
  · exact grows_id

theorem grows_delimiterOf {E : Env} {c D : Nat} (ho : OptionsFit E c D) (n : Bytes) : Grows c (delimited (delimiterOf E n)) := by
  rw [delimiterOf]
  split
  · exact grows_delimited ho.strong.2 ho.strong.1
  · split
    · exact grows_delimited ho.em.2 ho.em.1
    · exact grows_delimited (show Unbroken [] from rfl) (by simp)

theorem render_fits {E : Env} {K : Consts} {D : Nat} (ho : OptionsFit E K.c D) :
    (∀ x, (∀ y ∈ nodes x, TableFits E K y ∧ HeadingFits E K y) → ∀ link stuck out, renderNode E link stuck x = some out → Fits K (pageSize x) out) ∧
    (∀ xs, (∀ y ∈ nodesL xs, TableFits E K y ∧ HeadingFits E K y) → ∀ link stuck,
      (∀ out, renderL E link stuck xs = some out → FitsL K (pageSizeL xs) out) ∧
      (∀ outs, renderEach E link stuck xs = some outs → FitsEach K (pageSizeL xs) outs)) := by
  have hc : 30 ≤ K.c := by have := ho.address; omega
  have hmul : ∀ w, 30 * w ≤ K.c * w := fun w => Nat.mul_le_mul_right w hc
  have hone : ∀ w, 1 ≤ w → K.c ≤ K.c * w := fun w hw => Nat.le_mul_of_pos_right _ hw
  apply Dom.induct
  · intro d _ link stuck out h
    rw [renderNode] at h
    cases h
    have h1 := text_length E.mode isCommonmarkChar link d
    have h2 := hmul (1 + d.length)
    exact Fits.leaf (by simp only [pageSize]; omega) (by simp only [pageSize]; omega)
  · intro d _ link stuck out h
    rw [renderNode] at h
    cases h
    have h2 := hmul (1 + d.length)
    refine Fits.leaf (by simp only [pageSize]; omega) ?_
    rw [renderComment]
    split
    · simp only [pageSize, List.length_cons, List.length_nil]; omega
    · rw [fallback]
      split
      · simp only [pageSize, List.length_append, List.length_cons, List.length_nil]; omega
      · simp
  · intro d _ link stuck out h
    rw [renderNode] at h
    cases h
    have h2 := hmul (1 + d.length)
    refine Fits.leaf (by simp only [pageSize]; omega) ?_
    rw [fallback]
    split
    · simp only [pageSize, List.length_append, List.length_cons, List.length_nil]; omega
    · simp
  · intro cs ih hall link stuck out h
    rw [renderNode] at h
    cases hl : renderL E link stuck cs with
    | none => rw [hl] at h; simp at h
    | some s =>
      rw [hl] at h
      cases h
      rw [nodes] at hall
      have := ((ih fun y hy => hall y (by simp [hy])) link stuck).1 s hl
      have := Fits.grow (own := 1) (Nat.le_refl _) this (grows_fallback E b!"#document" (by omega))
      rw [pageSize, Nat.add_comm]; exact this
  · intro n a cs ih hall link stuck out h
    rw [nodes] at hall
    have hself := hall _ (List.mem_cons_self ..)
    have hch : ∀ link stuck s, renderL E link stuck cs = some s → FitsL K (pageSizeL cs) s :=
      fun link stuck s hs => ((ih fun y hy => hall y (by simp [hy])) link stuck).1 s hs
    have heach := fun link stuck => ((ih fun y hy => hall y (by simp [hy])) link stuck).2
    have hw : pageSize (.elem n a cs) = pageSizeL cs + (1 + n.length + attrsSize a) := by rw [pageSize]; omega
    have hown : 1 ≤ 1 + n.length + attrsSize a := by omega
    have hgrow : ∀ (f : Bytes → Bytes) link stuck, Grows K.c f → (renderL E link stuck cs).map f = some out → Fits K (pageSize (.elem n a cs)) out := by
      intro f link stuck hf hm
      cases hl : renderL E link stuck cs with
      | none => rw [hl] at hm; simp at hm
      | some s =>
        rw [hl] at hm
        cases hm
        rw [hw]
        exact Fits.grow hown (hch _ _ _ hl) hf
    have hleaf : ∀ out : Bytes, out.length ≤ 30 * pageSize (.elem n a cs) → Fits K (pageSize (.elem n a cs)) out := by
      intro out hout
      exact Fits.leaf (size_pos _) (Nat.le_trans hout (hmul _))
    rw [renderNode] at h
    by_cases h0 : isBoldOrItalic n = true
    · rw [if_pos h0] at h
      exact hgrow _ _ _ (grows_delimiterOf ho n) h
    rw [if_neg h0] at h
    by_cases h1 : n = b!"hr"
    · rw [if_pos h1] at h
      cases h
      refine Fits.leaf (size_pos _) (Nat.le_trans ?_ (hone _ (size_pos _)))
      have := ho.rule
      simp only [divider, List.length_append, List.length_cons, List.length_nil]; omega
    rw [if_neg h1] at h
    by_cases h2 : n = b!"br"
    · rw [if_pos h2] at h
      cases h
      refine hleaf _ ?_
      have := size_pos (.elem n a cs)
      simp only [hardBreak, List.length_cons, List.length_nil]; omega
    rw [if_neg h2] at h
    by_cases h3 : n = b!"ul" ∨ n = b!"ol"
    · rw [if_pos h3] at h
      cases hl : renderEach E link (stuck || isProblematicParent n) cs with
      | none => rw [hl] at h; simp at h
      | some outs =>
        rw [hl] at h
        cases h
        have hf := heach _ _ _ hl
        have hs := list_size (unEscape := unEscapeContent E.mode (handlers E)) (unEscape_brk _ _) (unEscape_length _ _) (n ≠ b!"ul")
          E.cfg.bulletListMarker (startAt (Node.attr? b!"start" (.elem n a cs))) outs
        have hb := ho.bullet
        generalize E.cfg.bulletListMarker = bullet at *
        have h1 := Nat.mul_le_mul_right outs.length (show bullet.length + 44 + 2 ≤ K.c by omega)
        have h2 := Nat.mul_le_mul_right outs.length hb
        have h3 : (bullet.length + 44) * brks outs ≤ K.c * (K.A * pageSizeL cs ^ K.q) :=
          Nat.mul_le_mul (by omega) (by have := hf.brk; omega)
        have h4 := hone _ hown
        rw [hw]
        refine Fits.core hown ?_ ?_
        · have := hf.brk; omega
        · have := hf.length
          rw [Nat.mul_add]; omega
    rw [if_neg h3] at h
    by_cases h4 : n = b!"pre"
    · rw [if_pos h4] at h
      cases h
      refine hleaf _ ?_
      have h1 := blockCode_length (E.cfg.codeBlockFence.headD 0) (codeInfo [] (.elem n a cs)) (codeText (.elem n a cs))
      have h2 := codeInfo_length.1 (.elem n a cs) []
      have h3 := codeText_length.1 (.elem n a cs)
      have := size_pos (.elem n a cs)
      simp only [List.length_nil] at h2; omega
    rw [if_neg h4] at h
    by_cases h5 : DomUtils.isInlineCode n = true
    · rw [if_pos h5] at h
      cases h
      refine hleaf _ ?_
      have h1 := inlineCode_length (codeText (.elem n a cs))
      have h3 := codeText_length.1 (.elem n a cs)
      have := size_pos (.elem n a cs)
      omega
    rw [if_neg h5] at h
    by_cases h6 : n = b!"blockquote"
    · rw [if_pos h6] at h
      exact hgrow _ _ _ (grows_blockquote (by omega)) h
    rw [if_neg h6] at h
    by_cases h7 : isHeading n = true
    · rw [if_pos h7] at h
      have hh := h7
      cases hl : renderL E link (stuck || isProblematicParent n) cs with
      | none => rw [hl] at h; simp at h
      | some s =>
        rw [hl] at h
        simp only [Option.bind_some] at h
        by_cases hst : E.cfg.headingStyle = b!"setext"
        · rw [decide_eq_true hst] at h
          exact hself.2 n a cs rfl hh hst _ _ _ _ hl h
        · rw [decide_eq_false hst] at h
          have h1 := heading_atx (headingLevel_le n) (by simp) h
          have h2 := hch _ _ _ hl
          have h4 := hone _ hown
          rw [hw]
          refine Fits.core hown ?_ ?_
          · have := h2.brk; omega
          · have := h2.length
            rw [Nat.mul_add]; omega
    rw [if_neg h7] at h
    by_cases h8 : n = b!"img"
    · rw [if_pos h8] at h
      cases hl : renderL E link (stuck || isProblematicParent n) cs with
      | none => rw [hl] at h; simp at h
      | some s =>
        rw [hl] at h
        simp only [Option.map_some, Option.some.injEq] at h
        rw [renderImage] at h
        cases hi : image E.assemble (Node.attrOr b!"src" [] (.elem n a cs)) (Node.attrOr b!"title" [] (.elem n a cs)) (Node.attrOr b!"alt" [] (.elem n a cs)) with
        | none =>
          rw [hi] at h
          simp only [Option.getD_none] at h
          subst h
          rw [hw]
          exact Fits.grow hown (hch _ _ _ hl) (grows_fallback E b!"img" (by omega))
        | some o =>
          rw [hi] at h
          simp only [Option.getD_some] at h
          subst h
          have h1 := image_length ho.assemble hi
          have h2 := attr_le b!"src" n a cs
          have h3 := attr_le b!"title" n a cs
          have h4 := attr_le b!"alt" n a cs
          have h5 : D * (List.length (Node.attrOr b!"src" [] (.elem n a cs)) + 1) ≤ D * pageSize (.elem n a cs) := Nat.mul_le_mul_left _ (by rw [hw]; omega)
          have h6 := Nat.mul_le_mul_right (pageSize (.elem n a cs)) ho.address
          rw [Nat.add_mul] at h6
          refine Fits.leaf (size_pos _) ?_
          omega
    rw [if_neg h8] at h
    by_cases h9 : n = b!"a"
    · rw [if_pos h9] at h
      cases hl : renderL E true (stuck || isProblematicParent n) cs with
      | none => rw [hl] at h; simp at h
      | some s =>
        cases hl2 : renderL E link (stuck || isProblematicParent n) cs with
        | none => rw [hl, hl2] at h; simp at h
        | some s2 =>
          rw [hl, hl2] at h
          simp only [Option.bind_some, Option.map_some, Option.some.injEq] at h
          rw [renderLink] at h
          split at h
          · generalize hk : Commonmark.link _ _ _ _ s = r at h
            cases r with
            | none =>
              simp only [Option.getD_none] at h
              subst h
              rw [hw]
              exact Fits.grow hown (hch _ _ _ hl2) (grows_fallback E b!"a" (by omega))
            | some o =>
              simp only [Option.getD_some] at h
              subst h
              have h1 := link_size hk
              have h2 := hch _ _ _ hl
              have h3 := ho.assemble (trimSpace (Node.attrOr b!"href" [] (.elem n a cs)))
              have h4 := trimSpace_length (Node.attrOr b!"href" [] (.elem n a cs))
              have h5 := attr_le b!"href" n a cs
              have h6 := attr_le b!"title" n a cs
              have h7 : D * (List.length (trimSpace (Node.attrOr b!"href" [] (.elem n a cs))) + 1) ≤ D * (1 + n.length + attrsSize a) :=
                Nat.mul_le_mul_left _ (by omega)
              have h8 := Nat.mul_le_mul_right (1 + n.length + attrsSize a) ho.address
              have h9 : 2 * brk s ≤ K.c * (K.A * pageSizeL cs ^ K.q) := Nat.mul_le_mul (by omega) h2.brk
              rw [Nat.add_mul] at h8
              rw [hw]
              refine Fits.core hown ?_ ?_
              · have := h2.brk; omega
              · have := h2.length
                rw [Nat.mul_add]; omega
          · simp only [Option.getD_none] at h
            subst h
            rw [hw]
            exact Fits.grow hown (hch _ _ _ hl2) (grows_fallback E b!"a" (by omega))
    rw [if_neg h9] at h
    by_cases h10 : isStrike n = true
    · rw [if_pos h10] at h
      cases hs : E.strike with
      | some d =>
        rw [hs] at h
        exact hgrow _ _ _ (grows_delimited (ho.strike d hs).2 (ho.strike d hs).1) h
      | none =>
        rw [hs] at h
        exact hgrow _ _ _ (grows_fallback E n (by omega)) h
    rw [if_neg h10] at h
    by_cases h11 : n = b!"table"
    · rw [if_pos h11] at h
      have hn := h11
      cases ht : E.table with
      | none =>
        rw [ht] at h
        exact hgrow _ _ _ (grows_fallback E n (by omega)) h
      | some cfg =>
        rw [ht] at h
        dsimp only at h
        cases hr : renderTable cfg (unEscapeContent E.mode (handlers E)) stuck (.elem n a cs) (fun p => renderAt E link (stuck || isProblematicParent n) p cs) with
        | none => rw [hr] at h; simp at h
        | some r =>
          rw [hr] at h
          cases r with
          | none => exact hgrow _ _ _ (grows_fallback E n (by omega)) h
          | some o =>
            simp only [Option.bind_some, Option.some.injEq] at h
            subst h
            exact hself.1 n a cs rfl hn cfg link stuck o ht hr
    rw [if_neg h11] at h
    by_cases h12 : n = b!"tr" ∧ E.table.isSome = true
    · rw [if_pos h12] at h
      exact hgrow _ _ _ (grows_blocks (by omega)) h
    rw [if_neg h12] at h
    exact hgrow _ _ _ (grows_fallback E n (by omega)) h
  · intro _ link stuck
    refine ⟨?_, ?_⟩
    · intro out h; rw [renderL] at h; cases h; exact FitsL.nil K
    · intro outs h; rw [renderEach] at h; cases h; exact FitsEach.nil K
  · intro n ns ih1 ih2 hall link stuck
    rw [nodesL] at hall
    have h1 := ih1 (fun y hy => hall y (by simp [hy])) link stuck
    have h2 := ih2 (fun y hy => hall y (by simp [hy])) link stuck
    refine ⟨?_, ?_⟩
    · intro out h
      rw [renderL] at h
      cases hx : renderNode E link stuck n with
      | none => rw [hx] at h; simp at h
      | some x =>
        rw [hx] at h
        cases hy : renderL E link stuck ns with
        | none => rw [hy] at h; simp at h
        | some y =>
          rw [hy] at h
          simp only [Option.bind_some, Option.map_some, Option.some.injEq] at h
          subst h
          exact FitsL.cons (h1 x hx) (h2.1 y hy)
    · intro outs h
      rw [renderEach] at h
      cases hx : renderNode E link stuck n with
      | none => rw [hx] at h; simp at h
      | some x =>
        rw [hx] at h
        cases hy : renderEach E link stuck ns with
        | none => rw [hy] at h; simp at h
        | some y =>
          rw [hy] at h
          simp only [Option.bind_some, Option.map_some, Option.some.injEq] at h
          subst h
          exact FitsEach.cons (h1 x hx) (h2.2 y hy)

end Verif.Size
