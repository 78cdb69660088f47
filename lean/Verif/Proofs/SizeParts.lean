import Verif.Proofs.SizeBytes
import Verif.Proofs.SizeTree
/-!
# The size of texts, code, links, images and lists
-/

namespace Verif.Size
open Verif Verif.TextUtils Verif.Escape Verif.Commonmark Verif.Spec Verif.Render

/-! ## Texts -/

theorem replaceBytes_length (h : UInt8 → Option Bytes) (k : Nat) (hk : 1 ≤ k) (hh : ∀ b x, h b = some x → x.length ≤ k) (s : Bytes) :
    (replaceBytes h s).length ≤ k * s.length := by
  induction s with
  | nil => simp [replaceBytes]
  | cons b s ih =>
    rw [replaceBytes] at *
    rw [List.flatMap_cons, List.length_append, List.length_cons, Nat.mul_add]
    have : ((h b).getD [b]).length ≤ k := by
      cases hb : h b with
      | none => simpa using hk
      | some x => exact hh b x hb
    omega

theorem escapeLoop_length (isMd : Nat → Bool) (s : Bytes) : (escapeLoop isMd s).length ≤ 3 * s.length := by
  induction s with
  | nil => simp [escapeLoop]
  | cons b s ih =>
    rw [escapeLoop]
    split
    · simp only [List.length_append, List.length_cons, List.length_nil]; omega
    · split <;> simp only [List.length_cons] <;> omega

theorem text_length (m : Mode) (isMd : Nat → Bool) (link : Bool) (d : Bytes) :
    (linkTextTransform link (baseTextTransform m isMd d)).length ≤ 12 * d.length := by
  have h1 : (entityReplace d).length ≤ 4 * d.length := by
    refine replaceBytes_length _ 4 (by omega) ?_ d
    intro b x hx
    split at hx
    · cases hx; simp
    · split at hx
      · cases hx; simp
      · simp at hx
  have h2 : (baseTextTransform m isMd d).length ≤ 12 * d.length := by
    rw [baseTextTransform]
    cases m with
    | smart => have := escapeLoop_length isMd (entityReplace d); simp only [escapeContent]; omega
    | disabled => simp only [escapeContent]; omega
  rw [linkTextTransform]
  split
  · exact Nat.le_trans (replaceAll_length_le (by simp) (by simp) _) h2
  · exact h2

/-! ## Code -/

theorem fenceRuns_le (c : UInt8) : ∀ (s : Bytes) (t : Nat), ∀ r ∈ fenceRuns c t s, r ≤ t + s.length
  | [], t => by
    intro r hr
    rw [fenceRuns] at hr
    split at hr
    · simp at hr; simp; omega
    · simp at hr
  | b :: s, t => by
    intro r hr
    rw [fenceRuns] at hr
    split at hr
    · have := fenceRuns_le c s _ r hr
      simp only [List.length_cons]; omega
    · split at hr
      · rcases List.mem_cons.1 hr with rfl | hr
        · omega
        · have := fenceRuns_le c s _ r hr
          simp only [List.length_cons]; omega
      · have := fenceRuns_le c s _ r hr
        simp only [List.length_cons]; omega

theorem foldl_max_le' (B : Nat) : ∀ (ls : List Nat) (w : Nat), w ≤ B → (∀ l ∈ ls, l ≤ B) → ls.foldl (fun m x => if x > m then x else m) w ≤ B
  | [], w, hw, _ => hw
  | l :: ls, w, hw, hl => by
    rw [List.foldl_cons]
    refine foldl_max_le' B ls _ ?_ fun x hx => hl x (by simp [hx])
    have := hl l (by simp)
    split <;> omega

theorem occurrences_le (c : UInt8) (s : Bytes) : calculateCodeFenceOccurrences c s ≤ s.length := by
  rw [calculateCodeFenceOccurrences]
  have h := fenceRuns_le c s 0
  cases hr : fenceRuns c 0 s with
  | nil => simp [findMax]
  | cons v vs =>
    rw [hr] at h
    rw [findMax]
    refine foldl_max_le' _ vs v ?_ ?_
    · have := h v (by simp); omega
    · intro x hx; have := h x (by simp [hx]); omega

theorem inlineCode_length (s : Bytes) : (inlineCode s).length ≤ 3 * s.length + 4 := by
  rw [inlineCode]
  split
  · simp only [List.length_append, List.length_cons, List.length_nil]; omega
  · have h1 : (collapseInlineCodeContent s).length ≤ s.length := by
      rw [collapseInlineCodeContent]
      refine Nat.le_trans (dropDouble_sublist _ _).length_le ?_
      refine Nat.le_trans (trimSpace_length _) ?_
      refine Nat.le_trans (replaceAll_length_le (by simp) (by simp) _) ?_
      exact replaceAll_length_le (by simp) (by simp) _
    generalize collapseInlineCodeContent s = t at h1
    have h2 := occurrences_le 96 t
    simp only [List.length_append, List.length_replicate]
    split <;> split <;> (try simp only [List.length_append, List.length_cons, List.length_nil]) <;> omega

theorem blockCode_length (c : UInt8) (info s : Bytes) : (blockCode c info s).length ≤ 5 * s.length + info.length + 14 := by
  have h1 : (dropTrailingNewline s).length ≤ s.length := by
    rw [dropTrailingNewline]
    split
    · simp
    · omega
  rw [blockCode]
  generalize dropTrailingNewline s = t at h1
  have h2 := occurrences_le c t
  have h3 := replaceAll_length_mul (old := [NL]) (new := codeNewline) (by simp) (k := 3) (by omega) (by simp [codeNewline]) t
  have h4 : (calculateCodeFence c t).length ≤ t.length + 3 := by
    rw [calculateCodeFence]
    simp only [List.length_replicate]
    split <;> omega
  simp only [List.length_append, List.length_cons, List.length_nil]; omega

theorem codeText_length : (∀ n, (codeText n).length ≤ pageSize n) ∧ (∀ ns, (codeTextL ns).length ≤ pageSizeL ns) := by
  apply Dom.induct
  · intro d; simp only [codeText, pageSize]; omega
  · intro d; simp [codeText]
  · intro d; simp [codeText]
  · intro cs ih; simp only [codeText, pageSize]; omega
  · intro n a cs ih
    rw [codeText]
    split
    · simp
    · split <;> simp only [pageSize, List.length_cons] <;> omega
  · simp [codeTextL]
  · intro n ns ih1 ih2; simp only [codeTextL, pageSizeL, List.length_append]; omega

theorem attr_le (key : Bytes) (n : Bytes) (a : List (Bytes × Bytes)) (cs : List Node) : (Node.attrOr key [] (.elem n a cs)).length ≤ attrsSize a := by
  have h : ∀ a : List (Bytes × Bytes), ((((a.find? fun x => x.1 == key).map (·.2)).getD []).length : Nat) ≤ attrsSize a := by
    intro a
    induction a with
    | nil => simp [attrsSize]
    | cons x a ih =>
      rw [List.find?_cons]
      rw [attrsSize] at *
      split
      · simp only [Option.map_some, Option.getD_some, List.map_cons, List.sum_cons]; omega
      · simp only [List.map_cons, List.sum_cons]; omega
  exact h a

theorem codeLanguage_length (cls : Bytes) : (codeLanguage cls).length ≤ cls.length := by
  have hd : ∀ old s : Bytes, (dropFirst old s).length ≤ s.length := by
    intro old s
    induction s with
    | nil => simp [dropFirst]
    | cons b s ih =>
      rw [dropFirst]
      split
      · simp only [List.length_drop]; omega
      · simp only [List.length_cons]; omega
  have hs : ∀ s : Bytes, ∀ l ∈ splitOn SP s, l.length ≤ s.length := by
    intro s
    induction s with
    | nil => simp [splitOn]
    | cons b s ih =>
      intro l hl
      rw [splitOn] at hl
      split at hl
      · rcases List.mem_cons.1 hl with rfl | hl
        · simp
        · have := ih l hl; simp only [List.length_cons]; omega
      · split at hl
        · simp at hl; subst hl; simp
        · rename_i l' ls he
          rw [he] at ih
          rcases List.mem_cons.1 hl with rfl | hl
          · have := ih l' (by simp); simp only [List.length_cons]; omega
          · have := ih l (by simp [hl]); simp only [List.length_cons]; omega
  rw [codeLanguage]
  split
  · simp
  · rename_i part hf
    have h1 := hs cls part (List.mem_of_find?_eq_some hf)
    have h2 := hd b!"language-" part
    have h3 := hd b!"lang-" (dropFirst b!"language-" part)
    omega

theorem codeInfo_length : (∀ n, ∀ info, (codeInfo info n).length ≤ info.length + pageSize n) ∧
    (∀ ns, ∀ info, (codeInfoL info ns).length ≤ info.length + pageSizeL ns) := by
  apply Dom.induct
  · intro d info; simp [codeInfo]
  · intro d info; simp [codeInfo]
  · intro d info; simp [codeInfo]
  · intro cs ih info; have := ih info; simp only [codeInfo, pageSize]; omega
  · intro n a cs ih info
    rw [codeInfo]
    have h0 := codeLanguage_length (Node.attrOr b!"class" [] (.elem n a cs))
    have h1 := attr_le b!"class" n a cs
    have h2 : ((if (n = b!"code" ∨ n = b!"pre") ∧ info = [] then codeLanguage (Node.attrOr b!"class" [] (.elem n a cs)) else info) : Bytes).length
        ≤ info.length + attrsSize a := by split <;> omega
    generalize (if (n = b!"code" ∨ n = b!"pre") ∧ info = [] then codeLanguage (Node.attrOr b!"class" [] (.elem n a cs)) else info) = info' at *
    have h3 := ih info'
    split <;> simp only [pageSize] <;> omega
  · intro info; simp [codeInfoL]
  · intro n ns ih1 ih2 info
    have h1 := ih1 info
    have h2 := ih2 (codeInfo info n)
    simp only [codeInfoL, pageSizeL]; omega

/-! ## Links and images -/

theorem titlePart_length (t : Bytes) : (titlePart t).length ≤ 2 * t.length + 3 := by
  rw [titlePart]
  split
  · rw [surroundByQuotes]
    split
    · simp
    · have h := replaceAll_length_mul (old := b!"\"") (new := b!"\\\"") (by simp) (k := 2) (by omega) (by simp) t
      simp only [List.length_cons]
      split
      · simp only [surroundBy, List.length_append, List.length_cons, List.length_nil]; omega
      · split <;> simp only [surroundBy, List.length_append, List.length_cons, List.length_nil] <;> omega
  · simp

theorem escapeAlt_length (s : Bytes) : (escapeAlt s).length ≤ 2 * s.length := by
  have h : ∀ (s : Bytes) (p : Option UInt8), (escapeAltGo p s).length ≤ 2 * s.length := by
    intro s
    induction s with
    | nil => intro p; simp [escapeAltGo]
    | cons b s ih =>
      intro p
      have := ih (some b)
      rw [escapeAltGo]
      split <;> simp only [List.length_cons] <;> omega
  exact h s none

theorem image_length {assemble : Bytes → Bytes} {D : Nat} (hD : ∀ u, (assemble u).length ≤ D * (u.length + 1)) {src title alt out : Bytes}
    (h : image assemble src title alt = some out) : out.length ≤ D * (src.length + 1) + 2 * title.length + 2 * alt.length + 8 := by
  rw [image] at h
  split at h
  · simp at h
  · cases h
    have h1 := hD (trimSpace src)
    have h2 := Nat.mul_le_mul_left D (Nat.add_le_add_right (trimSpace_length src) 1)
    have h3 := titlePart_length (replaceAll [NL] [SP] title)
    have h4 := replaceAll_length_le (old := [NL]) (new := [SP]) (by simp) (by simp) title
    have h5 := escapeAlt_length (replaceAll [NL] [SP] alt)
    have h6 := replaceAll_length_le (old := [NL]) (new := [SP]) (by simp) (by simp) alt
    simp only [List.length_append, List.length_cons, List.length_nil]; omega

theorem link_size {a b : Bool} {href title content out : Bytes} (h : link a b href title content = some out) :
    brk out ≤ brk content + href.length + 2 * title.length + 10 ∧
    out.length ≤ content.length + 2 * brk content + href.length + 2 * title.length + 10 := by
  rw [link] at h
  split at h
  · simp at h
  · split at h
    · simp at h
    · cases h
      have hl := surroundingSpaces_wt (fun _ => 1) content
      have hb := surroundingSpaces_wt isBrk content
      have h2 : ((if href = [] then [] else replaceAll [NL] [SP] title) : Bytes).length ≤ title.length := by
        split
        · simp
        · exact replaceAll_length_le (by simp) (by simp) _
      generalize (if href = [] then [] else replaceAll [NL] [SP] title : Bytes) = t at h2
      have h3 := titlePart_length t
      simp only [surroundingSpaces] at hl hb
      generalize List.take (List.length (trimRight content) - List.length (trimLeft (trimRight content))) content = x at *
      generalize List.drop (List.length (trimRight content)) content = z at *
      generalize trimLeft (trimRight content) = y at *
      simp only [wt_one] at hl
      have h4 := escapeMultiLine_brk (trimConsecutiveNewlines y)
      have h5 := escapeMultiLine_length (trimConsecutiveNewlines y)
      have h6 : brk (trimConsecutiveNewlines y) ≤ brk y := wt_sublist _ (trimConsecutive_sublist y)
      have h7 := (trimConsecutive_sublist y).length_le
      have h8 := brk_le href
      have h9 := brk_le (titlePart t)
      refine ⟨?_, ?_⟩
      · simp only [brk_append]
        rw [show brk [91] = 0 by decide, show brk b!"](" = 0 by decide, show brk b!")" = 0 by decide]
        simp only [brk] at *; omega
      · simp only [brk] at *
        simp only [List.length_append, List.length_cons, List.length_nil]; omega

/-! ## Lists -/

theorem digitsGo_length : ∀ (fuel n : Nat) (acc : Bytes) (k : Nat), n < 10 ^ k → 1 ≤ k → (digitsGo fuel n acc).length ≤ acc.length + k
  | 0, n, acc, k, _, _ => by simp [digitsGo]
  | fuel + 1, n, acc, k, h, hk => by
    rw [digitsGo]
    split
    · simp only [List.length_cons]; omega
    · rename_i hn
      have h1 : k ≠ 1 := by rintro rfl; omega
      obtain ⟨j, rfl⟩ : ∃ j, k = j + 1 := ⟨k - 1, by omega⟩
      have h2 : n / 10 < 10 ^ j := by
        rw [Nat.pow_succ] at h
        exact Nat.div_lt_of_lt_mul (by omega)
      have := digitsGo_length fuel (n / 10) (UInt8.ofNat (48 + n % 10) :: acc) j h2 (by omega)
      simp only [List.length_cons] at *; omega

theorem natBytes_length {n : Nat} (h : n < 10 ^ 20) : (natBytes n).length ≤ 20 := by
  have := digitsGo_length (n + 1) n [] 20 h (by omega)
  simpa [natBytes] using this

theorem wrap64_abs (i : Int) : (wrap64 i).natAbs < 10 ^ 20 := by
  have h1 := Int.bmod_lt (x := i) (m := 2 ^ 64) (by decide)
  have h2 := Int.le_bmod (x := i) (m := 2 ^ 64) (by decide)
  rw [wrap64]
  omega

theorem padInt_length (w : Nat) (i : Int) (h : i.natAbs < 10 ^ 20) : (padInt w i).length ≤ w + 21 := by
  have := natBytes_length h
  rw [padInt]
  split <;> simp only [List.length_append, List.length_cons, List.length_replicate] <;> omega

theorem itoa_length (i : Int) (h : i.natAbs < 10 ^ 20) : (itoa i).length ≤ 21 := by
  have := natBytes_length h
  rw [itoa]
  split
  · simp only [List.length_cons]; omega
  · omega

theorem listPrefix_length (o : Bool) (bullet : Bytes) (start : Int) (n i : Nat) : (listPrefix o bullet start n i).length ≤ bullet.length + 44 := by
  rw [listPrefix]
  split
  · simp only [List.length_append, List.length_cons, List.length_nil]; omega
  · have h1 := itoa_length (wrap64 (wrap64 (start + n) - 1)) (wrap64_abs _)
    have h2 := padInt_length (itoa (wrap64 (wrap64 (start + n) - 1))).length (wrap64 (start + i)) (wrap64_abs _)
    simp only [List.length_append, List.length_cons, List.length_nil]; omega

theorem multiGo_wt (f : UInt8 → Nat) (hNL : f NL = 1) (indent : Bytes) (j : Nat) (hj : wt f indent = j) : ∀ (ls : List Bytes) (b : Bool),
    wt f (multiLineListItemGo indent b ls) ≤ lw (fun b => f b + j * isBrk b) ls
  | [], b => by simp [multiLineListItemGo, lw, wt]
  | l :: ls, b => by
    have ih := multiGo_wt f hNL indent j hj ls false
    have h := wt_replaceAll (f := f) (g := fun b => f b + j * isBrk b) (old := codeNewline) (new := codeNewline ++ indent) (by simp [codeNewline])
      (fun b => by omega) (by
        rw [wt_append, hj, wt_add, wt_mul, show wt isBrk codeNewline = 1 by decide]; omega) l
    rw [multiLineListItemGo]
    simp only [wt_append, lw]
    have h1 : wt f (if b = true then [] else indent) ≤ j := by
      split
      · simp [wt]
      · omega
    have h2 : wt f (if ls = [] then [] else [NL]) ≤ 1 := by
      split
      · simp [wt]
      · simp [wt, hNL]
    rw [show isBrk NL = 1 by decide, hNL]
    omega

theorem multi_brk (s : Bytes) (k : Nat) : brk (multiLineListItem s k) ≤ brk s + 1 := by
  have h := multiGo_wt isBrk (by decide) (List.replicate k SP) 0 (by rw [wt_replicate, show isBrk SP = 0 by decide, Nat.mul_zero]) (splitOn NL s) true
  rw [wt_split] at h
  simp only [Nat.zero_mul, Nat.add_zero, show isBrk NL = 1 by decide] at h
  exact h

theorem multi_length (s : Bytes) (k : Nat) : (multiLineListItem s k).length ≤ s.length + k * (brk s + 1) + 1 := by
  have h := multiGo_wt (fun _ => 1) rfl (List.replicate k SP) k (by simp [wt_one]) (splitOn NL s) true
  rw [wt_split, wt_add, wt_mul, wt_one, wt_one] at h
  simp only [show isBrk NL = 1 by decide] at h
  rw [multiLineListItem, brk, Nat.mul_add]; omega

/-- The sum of the lengths of byte strings. -/
def lens : List Bytes → Nat
  | [] => 0
  | s :: ss => s.length + lens ss

/-- The sum of the numbers of breaks. -/
def brks : List Bytes → Nat
  | [] => 0
  | s :: ss => brk s + brks ss

theorem listItems_size {unEscape : Bytes → Bytes} (hb : ∀ s, brk (unEscape s) ≤ brk s) (hl : ∀ s, (unEscape s).length ≤ s.length)
    {pfx : Nat → Bytes} {k : Nat} (hp : ∀ i, (pfx i).length ≤ k) (n : Nat) (hn : n ≤ k) : ∀ (items : List Bytes) (i : Nat),
    brk (listItemsGo unEscape pfx n i items) ≤ brks items + (k + 2) * items.length ∧
    (listItemsGo unEscape pfx n i items).length ≤ lens items + k * brks items + (2 * k + 2) * items.length
  | [], i => by simp [listItemsGo, brk, wt]
  | item :: items, i => by
    have ih := listItems_size hb hl hp n hn items (i + 1)
    rw [listItemsGo]
    have h1 := Nat.le_trans (hb _) (trimmed_brk item)
    have h2 := Nat.le_trans (hl _) (trimmed_length item)
    generalize unEscape (trimUnnecessaryHardLineBreaks (trimConsecutiveNewlines item)) = t at h1 h2
    have h3 := multi_brk t n
    have h4 := multi_length t n
    have h5 := hp i
    have h6 := brk_le (pfx i)
    have h7 : n * (brk t + 1) ≤ k * (brk item + 1) := Nat.mul_le_mul hn (by omega)
    have h8 : ((if items = [] then [] else [NL]) : Bytes).length ≤ 1 := by split <;> simp
    have h9 := brk_le (if items = [] then [] else [NL])
    simp only [Nat.mul_add, Nat.mul_one] at h7 h4
    refine ⟨?_, ?_⟩
    · simp only [brk_append, brks, List.length_cons, Nat.mul_add]; omega
    · simp only [List.length_append, lens, brks, List.length_cons, Nat.mul_add]; omega

theorem items_size (p : Bytes → Bool) (contents : List Bytes) : lens ((contents.map trimSpace).filter p) ≤ lens contents ∧
    brks ((contents.map trimSpace).filter p) ≤ brks contents ∧ ((contents.map trimSpace).filter p).length ≤ contents.length := by
  induction contents with
  | nil => simp [lens, brks]
  | cons s ss ih =>
    have h1 := trimSpace_brk s
    have h2 := trimSpace_length s
    rw [List.map_cons, List.filter_cons]
    split <;> simp only [lens, brks, List.length_cons] <;> omega

theorem list_size {unEscape : Bytes → Bytes} (hb : ∀ s, brk (unEscape s) ≤ brk s) (hl : ∀ s, (unEscape s).length ≤ s.length)
    (o : Bool) (bullet : Bytes) (start : Int) (contents : List Bytes) :
    brk (list unEscape o bullet start contents) ≤ brks contents + (bullet.length + 44 + 2) * contents.length + 4 ∧
    (list unEscape o bullet start contents).length ≤
      lens contents + (bullet.length + 44) * brks contents + (2 * (bullet.length + 44) + 2) * contents.length + 4 := by
  have hi := items_size (fun x => decide (x ≠ [])) contents
  rw [list]
  generalize (contents.map trimSpace).filter (fun x => decide (x ≠ [])) = items at *
  split
  · simp [brk, wt]
  · have h := listItems_size hb hl (pfx := listPrefix o bullet start items.length) (k := bullet.length + 44) (fun i => listPrefix_length _ _ _ _ _)
      (runeCount (listPrefix o bullet start items.length 0)) (Nat.le_trans (runeCount_length _) (listPrefix_length _ _ _ _ _)) items 0
    have h1 := Nat.mul_le_mul_left (bullet.length + 44 + 2) hi.2.2
    have h2 := Nat.mul_le_mul_left (bullet.length + 44) hi.2.1
    have h3 := Nat.mul_le_mul_left (2 * (bullet.length + 44) + 2) hi.2.2
    refine ⟨?_, ?_⟩
    · simp only [brk_append]
      rw [show brk b!"\n\n" = 2 by decide]; omega
    · simp only [List.length_append, List.length_cons, List.length_nil]; omega

end Verif.Size
