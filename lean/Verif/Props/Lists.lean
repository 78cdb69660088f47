import Verif.Proofs.Lists
/-!
# Properties C34-C35: lists
-/

namespace Verif.Props
open Verif Verif.Commonmark Verif.TextUtils

/-- **C34**.  In an ordered list of `n` items that starts at `start ≥ 0` (and whose numbers fit into a Go
`int`) the marker of item `i` is the decimal number `start + i`, a full stop and a space.  All
numbers of the list have the same number of digits, which is that of the last number. -/
theorem c34_numbers (bullet : Bytes) (start : Int) (n i : Nat) (h0 : 0 ≤ start) (hmax : start + n ≤ 2 ^ 63) (hi : i < n) :
    ∃ ds, listPrefix true bullet start n i = ds ++ b!". " ∧ Spec.Digits ds ∧
      (Spec.decimalValue ds : Int) = start + i ∧
      (∀ k : Nat, 0 < k → (ds.length ≤ k ↔ start + n - 1 < 10 ^ k)) := by
  have h1 : wrap64 (start + i) = start + i := wrap64_id (by omega) (by omega)
  have h2 : wrap64 (wrap64 (start + n) - 1) = start + n - 1 := by
    rw [wrap64, wrap64, Int.bmod_sub_bmod]
    exact wrap64_id (by omega) (by omega)
  have hlast : (itoa (start + n - 1)).length = (natBytes (start + n - 1).natAbs).length := by
    rw [itoa, if_neg (by omega)]
  have hmono : (natBytes (start + i).natAbs).length ≤ (natBytes (start + n - 1).natAbs).length :=
    natBytes_mono (by omega)
  refine ⟨List.replicate ((natBytes (start + n - 1).natAbs).length - (natBytes (start + i).natAbs).length) 48 ++
    natBytes (start + i).natAbs, ?_, ⟨?_, ?_⟩, ?_, ?_⟩
  · simp only [listPrefix, Bool.not_true, Bool.false_eq_true, if_false]
    rw [h1, h2, hlast, padInt, if_neg (by omega)]
  · simp [natBytes_ne]
  · intro d hd
    rcases List.mem_append.1 hd with hd | hd
    · rw [(List.mem_replicate.1 hd).2]; decide
    · exact natBytes_mem _ d hd
  · rw [decimalValue_zeros, natBytes_value]; omega
  · intro k hk
    have e : (List.replicate ((natBytes (start + n - 1).natAbs).length - (natBytes (start + i).natAbs).length) (48 : UInt8) ++
        natBytes (start + i).natAbs).length = (natBytes (start + n - 1).natAbs).length := by
      simp; omega
    rw [e, natBytes_length _ _ hk]
    have : ((10 ^ k : Nat) : Int) = 10 ^ k := by simp
    omega

example : listPrefix true b!"-" 9 2 0 = b!"09. " ∧ listPrefix true b!"-" 9 2 1 = b!"10. " := by decide

/-- **C34**, the number alone, also for negative numbers: item `i` has the number `start + i`, in decimal notation with at least
one digit. -/
theorem c34_value (bullet : Bytes) (start : Int) (n i : Nat) (h0 : - 2 ^ 63 ≤ start) (hmax : start + n ≤ 2 ^ 63) (hi : i < n) :
    ∃ ds, listPrefix true bullet start n i = ds ++ b!". " ∧ Spec.intValue ds = start + i ∧
      (Spec.Digits ds ∨ ∃ ds', ds = 45 :: ds' ∧ Spec.Digits ds') := by
  have h1 : wrap64 (start + i) = start + i := wrap64_id (by omega) (by omega)
  have e : listPrefix true bullet start n i = padInt (itoa (wrap64 (wrap64 (start + n) - 1))).length (start + i) ++ b!". " := by
    simp only [listPrefix, Bool.not_true, Bool.false_eq_true, if_false]
    rw [h1]
  generalize (itoa (wrap64 (wrap64 (start + n) - 1))).length = w at e
  have hd : ∀ k : Nat, Spec.Digits (List.replicate k 48 ++ natBytes (start + i).natAbs) := by
    intro k
    refine ⟨by simp [natBytes_ne], ?_⟩
    intro d hd
    rcases List.mem_append.1 hd with hd | hd
    · rw [(List.mem_replicate.1 hd).2]; decide
    · exact natBytes_mem _ d hd
  refine ⟨_, e, ?_⟩
  by_cases hn : start + i < 0
  · rw [padInt]; simp only [hn, if_true]
    refine ⟨?_, Or.inr ⟨_, rfl, hd _⟩⟩
    simp only [Spec.intValue, List.head?_cons, if_true, List.drop_succ_cons, List.drop_zero]
    rw [decimalValue_zeros, natBytes_value]; omega
  · rw [padInt]; simp only [hn, if_false]
    refine ⟨?_, Or.inl (hd _)⟩
    rw [Spec.intValue, if_neg, decimalValue_zeros, natBytes_value]
    · omega
    · intro h
      have := (hd (w - (natBytes (start + i).natAbs).length)).2 45 (List.mem_of_mem_head? h)
      exact absurd this (by decide)

example : listPrefix true b!"-" (-2) 3 0 = b!"-2. " := by decide

/-- C34 fails for a negative start: the markers are no list markers and have different widths. -/
theorem c34_counterexample_negative :
    listPrefix true b!"-" (startAt (some b!"-1")) 2 0 = b!"-1. " ∧
    listPrefix true b!"-" (startAt (some b!"-1")) 2 1 = b!"0. " := by decide

/-- C34 fails at the end of the range of Go's `int`: the number after the largest is the smallest. -/
theorem c34_counterexample_overflow :
    listPrefix true b!"-" (startAt (some b!"9223372036854775807")) 2 1 = b!"-9223372036854775808. " := by decide

/-- A start with ten digits is kept, although CommonMark list markers have at most nine digits. -/
theorem c34_counterexample_ten_digits :
    listPrefix true b!"-" (startAt (some b!"1000000000")) 1 0 = b!"1000000000. " := by decide

theorem readDigits_digits : ∀ (ds : Bytes) (acc : Nat), (∀ d ∈ ds, 48 ≤ d ∧ d ≤ 57) →
    readDigits acc ds = some (ds.foldl (fun n d => 10 * n + (d.toNat - 48)) acc)
  | [], acc, _ => rfl
  | d :: ds, acc, h => by
    have hd : Escape.isDigitByte d = true := by
      have := h d (by simp)
      simp [Escape.isDigitByte, this.1, this.2]
    rw [readDigits, if_pos hd, readDigits_digits ds _ fun x hx => h x (by simp [hx]), List.foldl_cons, Nat.mul_comm]

/-- The value of a `start` attribute: a string of digits (that fits into an `int`) is read as its number. -/
theorem c34_start (ds : Bytes) (h : Spec.Digits ds) (hv : Spec.decimalValue ds < 2 ^ 63) :
    startAt (some ds) = Spec.decimalValue ds := by
  obtain ⟨hne, hd⟩ := h
  cases ds with
  | nil => exact absurd rfl hne
  | cons d ds =>
    have hd1 := hd d (by simp)
    have h45 : d ≠ 45 := by rintro rfl; exact absurd hd1.1 (by decide)
    have h43 : d ≠ 43 := by rintro rfl; exact absurd hd1.1 (by decide)
    have e1 : ¬ ((d :: ds).head? = some 45 ∨ (d :: ds).head? = some 43) := by simp [h45, h43]
    have e2 : ¬ ((d :: ds).head? = some 45) := by simp [h45]
    simp only [startAt, Option.getD_some, atoi]
    rw [if_neg e1, if_neg (by simp), readDigits_digits _ _ hd]
    simp only [e2, if_false]
    have hv' : Spec.decimalValue (d :: ds) < 9223372036854775808 := hv
    rw [Spec.decimalValue] at hv' ⊢
    rw [if_pos ⟨by omega, by omega⟩]; rfl

/-- With a sign the number may be negative; the smallest one is -2⁶³. -/
theorem c34_start_signed (ds : Bytes) (h : Spec.Digits ds) :
    (Spec.decimalValue ds ≤ 2 ^ 63 → startAt (some (b!"-" ++ ds)) = - (Spec.decimalValue ds : Int)) ∧
    (Spec.decimalValue ds < 2 ^ 63 → startAt (some (b!"+" ++ ds)) = Spec.decimalValue ds) := by
  have hr := readDigits_digits ds 0 h.2
  change readDigits 0 ds = some (Spec.decimalValue ds) at hr
  refine ⟨fun hv => ?_, fun hv => ?_⟩
  · have hv : Spec.decimalValue ds ≤ 9223372036854775808 := hv
    simp only [startAt, Option.getD_some, atoi, List.cons_append, List.nil_append, List.head?_cons, List.drop_succ_cons, List.drop_zero, true_or, if_true]
    rw [if_neg h.1, hr]
    dsimp only
    rw [if_pos ⟨by omega, by omega⟩]; rfl
  · have hv : Spec.decimalValue ds < 9223372036854775808 := hv
    simp only [startAt, Option.getD_some, atoi, List.cons_append, List.nil_append, List.head?_cons, List.drop_succ_cons, List.drop_zero, or_true, if_true]
    rw [if_neg h.1, hr]
    simp only [show (some (43 : UInt8) = some 45) = False by simp, if_false]
    rw [if_pos ⟨by omega, by omega⟩]; rfl

/-- A number that does not fit into 64 bits is not used. -/
theorem c34_start_too_large (ds : Bytes) (h : Spec.Digits ds) (hv : 2 ^ 63 < Spec.decimalValue ds) : ∀ s ∈ [ds, b!"-" ++ ds, b!"+" ++ ds], startAt (some s) = 1 := by
  have hr := readDigits_digits ds 0 h.2
  change readDigits 0 ds = some (Spec.decimalValue ds) at hr
  have hv : 9223372036854775808 < Spec.decimalValue ds := hv
  have hne := h.1
  intro s hs
  simp only [List.mem_cons, List.not_mem_nil, or_false] at hs
  rcases hs with rfl | rfl | rfl
  · obtain ⟨d, ds', rfl⟩ : ∃ d ds', s = d :: ds' := by
      cases s with
      | nil => exact absurd rfl hne
      | cons d ds' => exact ⟨d, ds', rfl⟩
    have hd1 := h.2 d (by simp)
    have h45 : d ≠ 45 := by rintro rfl; exact absurd hd1.1 (by decide)
    have h43 : d ≠ 43 := by rintro rfl; exact absurd hd1.1 (by decide)
    have e1 : ¬ ((d :: ds').head? = some 45 ∨ (d :: ds').head? = some 43) := by simp [h45, h43]
    have e2 : ¬ ((d :: ds').head? = some 45) := by simp [h45]
    simp only [startAt, Option.getD_some, atoi]
    rw [if_neg e1, if_neg (by simp), hr]
    simp only [e2, if_false]
    rw [if_neg (by omega)]; rfl
  · simp only [startAt, Option.getD_some, atoi, List.cons_append, List.nil_append, List.head?_cons, List.drop_succ_cons, List.drop_zero, true_or, if_true]
    rw [if_neg h.1, hr]
    dsimp only
    rw [if_neg (by omega)]; rfl
  · simp only [startAt, Option.getD_some, atoi, List.cons_append, List.nil_append, List.head?_cons, List.drop_succ_cons, List.drop_zero, or_true, if_true]
    rw [if_neg h.1, hr]
    simp only [show (some (43 : UInt8) = some 45) = False by simp, if_false]
    rw [if_neg (by omega)]; rfl

example : startAt (some b!"-9223372036854775808") = -9223372036854775808 ∧ startAt (some b!"-9223372036854775809") = 1 := by decide

/-- Without a (readable) `start` attribute a list starts at 1. -/
theorem c34_start_default : startAt none = 1 ∧ startAt (some []) = 1 ∧ startAt (some b!"x1") = 1 := by decide

/-! ## C35 -/

/-- The markers of a list with `n` items. -/
def Markers (ordered : Bool) (bullet : Bytes) (start : Int) (n : Nat) (markers : List Bytes) : Prop :=
  markers.length = n ∧
  if ordered then
    ∀ i, (h : i < markers.length) → ∃ ds, markers[i] = ds ++ b!". " ∧ Spec.Digits ds ∧ (Spec.decimalValue ds : Int) = start + i
  else ∀ m ∈ markers, m = bullet ++ [32]

/-- The Markdown of an item of a list: the trimmed content without superfluous blank lines and breaks, un-escaped,
with the newlines of code blocks. -/
def itemText (unEscape : Bytes → Bytes) (content : Bytes) : Bytes :=
  restoreCodeNewlines (unEscape (trimUnnecessaryHardLineBreaks (trimConsecutiveNewlines (trimSpace content))))

theorem readItems_spaces {w : Nat} (hw : 0 < w) (a : UInt8) (l : Bytes) (ha : a ≠ 32) : ¬ List.replicate w 32 <+: a :: l := by
  cases w with
  | zero => omega
  | succ w => rw [List.replicate_succ, List.cons_prefix_cons]; exact fun h => ha h.1.symm

/-- One item in front of others. -/
theorem readItems_item {w : Nat} (hw : 0 < w) (m : Bytes) (hm : m.length = w) (a : UInt8) (ha : a ≠ 32) (hma : m.head? = some a)
    (l : Bytes) (ls rest : List Bytes) (hr : (Spec.readItems w rest).1 = []) :
    Spec.readItems w ((m ++ l) :: ls.map (List.replicate w 32 ++ ·) ++ rest) = ([], (m, l :: ls) :: (Spec.readItems w rest).2) := by
  have hls : ∀ ls : List Bytes, Spec.readItems w (ls.map (List.replicate w 32 ++ ·) ++ rest) = (ls, (Spec.readItems w rest).2) := by
    intro ls
    induction ls with
    | nil => exact Prod.ext hr rfl
    | cons l ls ih =>
      rw [List.map_cons, List.cons_append, Spec.readItems, if_pos (List.prefix_append _ _), ih]
      simp
  rw [List.cons_append, Spec.readItems, hls]
  obtain ⟨m', rfl⟩ : ∃ m', m = a :: m' := by
    cases m with
    | nil => simp at hma
    | cons b m' => simp at hma; exact ⟨m', by rw [hma]⟩
  rw [if_neg (by rw [List.cons_append]; exact readItems_spaces hw a _ ha)]
  subst hm
  simp

/-- The lines of all items, as the reader sees them. -/
theorem items_read (unEscape : Bytes → Bytes) (pfx : Nat → Bytes) (w : Nat) (hw : 0 < w) : ∀ (items : List Bytes) (i : Nat),
    (∀ j, i ≤ j → j < i + items.length → (pfx j).length = w ∧ 10 ∉ pfx j ∧ (∃ a, a ≠ 32 ∧ (pfx j).head? = some a) ∧
      ∃ p, pfx j = p ++ [32] ∧ ¬ codeNewline <:+: p) → items ≠ [] →
    Spec.readItems w (Spec.lines (restoreCodeNewlines (listItemsGo unEscape pfx w i items))) =
      ([], (items.zipIdx i).map fun (it, j) => (pfx j, Spec.lines (restoreCodeNewlines (unEscape (trimUnnecessaryHardLineBreaks (trimConsecutiveNewlines it)))))) := by
  intro items
  induction items with
  | nil => intro i _ h; exact absurd rfl h
  | cons it items ih =>
    intro i h _
    obtain ⟨hlen, hnl, ⟨a, ha, hhead⟩, p, hp, hcode⟩ := h i (Nat.le_refl _) (by simp)
    generalize hX : unEscape (trimUnnecessaryHardLineBreaks (trimConsecutiveNewlines it)) = X
    -- the first item
    have hfirst : ∀ t, restoreCodeNewlines (pfx i ++ t) = pfx i ++ restoreCodeNewlines t := by
      intro t
      rw [hp, List.append_assoc, List.singleton_append, restore_cut (by decide)]
      have : restoreCodeNewlines p = p := replaceAll_id hcode
      rw [this]; simp
    obtain ⟨l, ls, hl⟩ : ∃ l ls, splitOn 10 (restoreCodeNewlines X) = l :: ls := by
      cases e : splitOn 10 (restoreCodeNewlines X) with
      | nil => exact absurd e (splitOn_nonempty _ _)
      | cons l ls => exact ⟨l, ls, rfl⟩
    have hpm : ∀ (q : Bytes), 10 ∉ q → ∀ t, splitOn 10 (q ++ t) = match splitOn 10 t with | [] => [] | l :: ls => (q ++ l) :: ls := by
      intro q
      induction q with
      | nil => intro _ t; cases e : splitOn 10 t <;> simp [e]
      | cons b q ihq =>
        intro hq t
        simp at hq
        rw [List.cons_append, split_other' (Ne.symm hq.1), ihq hq.2]
        cases e : splitOn 10 t with
        | nil => exact absurd e (splitOn_nonempty _ _)
        | cons l ls => rfl
    have hlines : splitOn 10 (pfx i ++ restoreCodeNewlines (multiLineListItem X w)) =
        (pfx i ++ l) :: ls.map (List.replicate w 32 ++ ·) := by
      rw [hpm _ hnl, restore_multi, split_indent, hl]; rfl
    have hz : ((it :: items).zipIdx i).map (fun x => (pfx x.2, Spec.lines (restoreCodeNewlines (unEscape (trimUnnecessaryHardLineBreaks (trimConsecutiveNewlines x.1)))))) =
        (pfx i, l :: ls) :: (items.zipIdx (i + 1)).map (fun x => (pfx x.2, Spec.lines (restoreCodeNewlines (unEscape (trimUnnecessaryHardLineBreaks (trimConsecutiveNewlines x.1)))))) := by
      rw [List.zipIdx_cons, List.map_cons]
      simp only [hX, Spec.lines, hl]
    rw [hz, listItemsGo]
    simp only [hX, Spec.lines]
    by_cases hi : items = []
    · subst hi
      rw [if_pos rfl, listItemsGo]
      simp only [List.append_nil]
      rw [hfirst, hlines]
      have := readItems_item hw (pfx i) hlen a ha hhead l ls [] rfl
      simpa [Spec.readItems] using this
    · rw [if_neg hi]
      have e : pfx i ++ multiLineListItem X w ++ [10] ++ listItemsGo unEscape pfx w (i + 1) items =
          pfx i ++ (multiLineListItem X w ++ 10 :: listItemsGo unEscape pfx w (i + 1) items) := by simp
      have hih := ih (i + 1) (fun j h1 h2 => h j (by omega) (by simp; omega)) hi
      rw [e, hfirst, restore_cut (by decide), ← List.append_assoc, splitOn_append, hlines]
      have := readItems_item hw (pfx i) hlen a ha hhead l ls (splitOn 10 (restoreCodeNewlines (listItemsGo unEscape pfx w (i + 1) items)))
        (by rw [Spec.lines] at hih; rw [hih])
      rw [Spec.lines] at hih
      rw [this, hih]; rfl

/-- **C35**.  Read the Markdown of a list (after the newlines of code blocks are restored): with the width of the markers, a
reader finds exactly the items of the list, each with its marker and with the lines of its content.
So every continuation line is indented by the width of the marker, and removing the indentation
returns the content.

The items are the children with visible content.  For ordered lists the numbers must be non-negative and fit into
an `int` (see `c34_counterexample_negative`). -/
theorem c35_items (unEscape : Bytes → Bytes) (ordered : Bool) (bullet : Bytes) (start : Int) (contents : List Bytes)
    (hb : bullet ∈ [b!"-", b!"+", b!"*"]) (h0 : 0 ≤ start) (hmax : start + contents.length ≤ 2 ^ 63)
    (hne : ∃ c ∈ contents, ¬ Spec.AllWhitespace c) :
    ∃ (items : List Bytes) (body : Bytes) (w : Nat) (markers : List Bytes),
      items = contents.filter (fun c => trimSpace c ≠ []) ∧ (∀ c, c ∈ items ↔ c ∈ contents ∧ ¬ Spec.AllWhitespace c) ∧
      list unEscape ordered bullet start contents = b!"\n\n" ++ body ++ b!"\n\n" ∧
      Markers ordered bullet start items.length markers ∧ (∀ m ∈ markers, m.length = w) ∧
      Spec.readItems w (Spec.lines (restoreCodeNewlines body)) =
        ([], markers.zip (items.map fun c => Spec.lines (itemText unEscape c))) := by
  let items := contents.filter fun c => trimSpace c ≠ []
  have hitems : (contents.map trimSpace).filter (· ≠ []) = items.map trimSpace := by
    rw [List.filter_map]; rfl
  have hmem : ∀ c, c ∈ items ↔ c ∈ contents ∧ ¬ Spec.AllWhitespace c := by
    intro c; simp [items, trimSpace_nil_iff]
  have hsub : items.Sublist contents := List.filter_sublist
  have hlen := hsub.length_le
  have hinon : items ≠ [] := by
    obtain ⟨c, h1, h2⟩ := hne
    intro h
    have := (hmem c).2 ⟨h1, h2⟩
    rw [h] at this; simp at this
  let pfx := listPrefix ordered bullet start items.length
  have hpos : 0 < items.length := List.length_pos_iff.2 hinon
  have hshape : ∀ j, j < items.length → (∀ b ∈ pfx j, b < 128) ∧ 10 ∉ pfx j ∧ (∃ a, a ≠ 32 ∧ (pfx j).head? = some a) ∧
      (∃ p, pfx j = p ++ [32] ∧ ¬ codeNewline <:+: p) ∧ (pfx j).length = (pfx 0).length ∧ 0 < (pfx j).length ∧
      (if ordered then ∃ ds, pfx j = ds ++ b!". " ∧ Spec.Digits ds ∧ (Spec.decimalValue ds : Int) = start + j else pfx j = bullet ++ [32]) := by
    intro j hj
    cases ordered with
    | false =>
      have e : ∀ j, pfx j = bullet ++ [32] := fun j => by simp [pfx, listPrefix]
      rw [e j, e 0]
      simp at hb
      rcases hb with rfl | rfl | rfl
      · exact ⟨by decide, by decide, ⟨45, by decide, rfl⟩, ⟨[45], rfl, by decide⟩, rfl, by decide, rfl⟩
      · exact ⟨by decide, by decide, ⟨43, by decide, rfl⟩, ⟨[43], rfl, by decide⟩, rfl, by decide, rfl⟩
      · exact ⟨by decide, by decide, ⟨42, by decide, rfl⟩, ⟨[42], rfl, by decide⟩, rfl, by decide, rfl⟩
    | true =>
      obtain ⟨ds, e, hd, hv, hl⟩ := c34_numbers bullet start items.length j h0 (by omega) hj
      obtain ⟨ds0, e0, hd0, hv0, hl0⟩ := c34_numbers bullet start items.length 0 h0 (by omega) hpos
      have hll : ds.length = ds0.length := by
        have p1 : 0 < ds.length := List.length_pos_iff.2 hd.1
        have p2 : 0 < ds0.length := List.length_pos_iff.2 hd0.1
        have := (hl _ p2).2 ((hl0 _ p2).1 (Nat.le_refl _))
        have := (hl0 _ p1).2 ((hl _ p1).1 (Nat.le_refl _))
        omega
      have e' : pfx j = ds ++ b!". " := e
      have e0' : pfx 0 = ds0 ++ b!". " := e0
      have hnot : ∀ v : UInt8, ¬ (48 ≤ v ∧ v ≤ 57) → v ∉ ds := fun v hv h => hv (hd.2 v h)
      rw [e', e0']
      refine ⟨?_, ?_, ?_, ⟨ds ++ [46], by simp, ?_⟩, by simp [hll], by simp, ?_⟩
      · intro b hb
        rcases List.mem_append.1 hb with hb | hb
        · have := (hd.2 b hb).2
          rw [UInt8.le_iff_toNat_le] at this
          rw [UInt8.lt_iff_toNat_lt]
          simp at this ⊢; omega
        · simp at hb; rcases hb with rfl | rfl <;> decide
      · simp; exact hnot 10 (by decide)
      · cases ds with
        | nil => exact absurd rfl hd.1
        | cons d ds => exact ⟨d, fun h => absurd (hd.2 d (by simp)) (by rw [h]; decide), rfl⟩
      · rintro ⟨x, y, hxy⟩
        have : (239 : UInt8) ∈ ds ++ [46] := by rw [← hxy]; simp [codeNewline]
        rcases List.mem_append.1 this with h | h
        · exact hnot 239 (by decide) h
        · exact absurd h (by decide)
      · exact ⟨ds, rfl, hd, hv⟩
  have hw : runeCount (pfx 0) = (pfx 0).length := runeCount_ascii _ (hshape 0 hpos).1
  refine ⟨items, listItemsGo unEscape pfx (pfx 0).length 0 (items.map trimSpace), (pfx 0).length,
    (List.range items.length).map pfx, rfl, hmem, ?_, ⟨by simp, ?_⟩, ?_, ?_⟩
  · simp only [list]
    rw [hitems, if_neg (by simpa using hinon), List.length_map]
    rw [← hw]
  · cases ordered with
    | true =>
      rw [if_pos rfl]
      intro i hi
      have hi' : i < items.length := by simpa using hi
      have := (hshape i hi').2.2.2.2.2.2
      rw [if_pos rfl] at this
      simpa using this
    | false =>
      rw [if_neg (by simp)]
      intro m hm
      obtain ⟨j, hj, rfl⟩ := List.mem_map.1 hm
      have := (hshape j (List.mem_range.1 hj)).2.2.2.2.2.2
      rw [if_neg (by simp)] at this
      exact this
  · intro m hm
    obtain ⟨j, hj, rfl⟩ := List.mem_map.1 hm
    exact (hshape j (List.mem_range.1 hj)).2.2.2.2.1
  · rw [items_read unEscape pfx _ (hshape 0 hpos).2.2.2.2.2.1 _ 0 _ (by simpa using hinon)]
    · congr 1
      apply List.ext_getElem
      · simp
      · intro i h1 h2
        simp [itemText]
    · intro j _ hj
      have hj' : j < items.length := by simpa using hj
      obtain ⟨_, a2, a3, a4, a5, _, _⟩ := hshape j hj'
      exact ⟨a5, a2, a3, a4⟩

example : list id true b!"-" 1 [b!"a\nb", b!" ", b!"c"] = b!"\n\n1. a\n   b\n2. c\n\n" := by decide

example : Spec.readItems 3 (Spec.lines b!"1. a\n   b\n2. c") =
    ([], [(b!"1. ", [b!"a", b!"b"]), (b!"2. ", [b!"c"])]) := by decide

/-- C35 fails for lists with a negative start: the continuation lines are indented by the width of the first
marker, not of their own. -/
theorem c35_counterexample_negative :
    list id true b!"-" (startAt (some b!"-1")) [b!"a", b!"b\nc"] = b!"\n\n-1. a\n0. b\n    c\n\n" := by decide

end Verif.Props
