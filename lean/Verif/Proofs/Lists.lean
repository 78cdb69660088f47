import Verif.Proofs.Fenced
import Verif.Spec.Lists
import Verif.Spec.Lines
/-!
# Lemmas about numbers and list items
-/
set_option linter.unusedSimpArgs false

namespace Verif
open Verif.Commonmark Verif.TextUtils

/-! ## Decimal numbers -/

theorem digit_toNat {n : Nat} (h : n < 10) : (UInt8.ofNat (48 + n)).toNat = 48 + n := by
  simp; omega

theorem digitsGo_value : ∀ (fuel n : Nat) (acc : Bytes), n < 10 ^ fuel → 0 < fuel →
    Spec.decimalValue (digitsGo fuel n acc) = acc.foldl (fun n d => 10 * n + (d.toNat - 48)) n := by
  intro fuel
  induction fuel with
  | zero => intro n acc _ h; omega
  | succ fuel ih =>
    intro n acc h _
    rw [digitsGo]
    have hd : (UInt8.ofNat (48 + n % 10)).toNat - 48 = n % 10 := by rw [digit_toNat (by omega)]; omega
    by_cases h10 : n < 10
    · rw [if_pos h10, Spec.decimalValue, List.foldl_cons, hd]
      congr 1; omega
    · rw [if_neg h10]
      have hf : 0 < fuel := by
        cases fuel with
        | zero => simp at h; omega
        | succ f => omega
      rw [ih _ _ (by rw [Nat.pow_succ] at h; omega) hf, List.foldl_cons, hd]
      congr 1; omega

theorem digitsGo_mem : ∀ (fuel n : Nat) (acc : Bytes), (∀ d ∈ acc, 48 ≤ d ∧ d ≤ 57) →
    ∀ d ∈ digitsGo fuel n acc, 48 ≤ d ∧ d ≤ 57 := by
  intro fuel
  induction fuel with
  | zero => intro n acc h; exact h
  | succ fuel ih =>
    intro n acc h
    have h' : ∀ d ∈ UInt8.ofNat (48 + n % 10) :: acc, 48 ≤ d ∧ d ≤ 57 := by
      intro d hd
      rcases List.mem_cons.1 hd with rfl | hd
      · have := digit_toNat (n := n % 10) (by omega)
        rw [UInt8.le_iff_toNat_le, UInt8.le_iff_toNat_le, this]
        simp; omega
      · exact h d hd
    rw [digitsGo]
    split
    · exact h'
    · exact ih _ _ h'

theorem digitsGo_length : ∀ (fuel n : Nat) (acc : Bytes) (k : Nat), n < 10 ^ fuel → 0 < fuel → 0 < k →
    ((digitsGo fuel n acc).length ≤ acc.length + k ↔ n < 10 ^ k) := by
  intro fuel
  induction fuel with
  | zero => intro n acc k _ h; omega
  | succ fuel ih =>
    intro n acc k h _ hk
    rw [digitsGo]
    by_cases h10 : n < 10
    · rw [if_pos h10]
      have : 10 ^ 1 ≤ 10 ^ k := Nat.pow_le_pow_right (by omega) hk
      simp; omega
    · rw [if_neg h10]
      have hf : 0 < fuel := by
        cases fuel with
        | zero => simp at h; omega
        | succ f => omega
      have hh := ih (n / 10) (UInt8.ofNat (48 + n % 10) :: acc)
      cases k with
      | zero => omega
      | succ k =>
        by_cases hk0 : k = 0
        · subst hk0
          have hlen : ∀ (f m : Nat) (a : Bytes), 0 < f → a.length + 1 ≤ (digitsGo f m a).length := by
            intro f
            induction f with
            | zero => intro m a h; omega
            | succ f ihf =>
              intro m a _
              rw [digitsGo]
              split
              · simp
              · cases f with
                | zero => simp [digitsGo]
                | succ f => have := ihf (m / 10) (UInt8.ofNat (48 + m % 10) :: a) (by omega); simp at this ⊢; omega
          have := hlen fuel (n / 10) (UInt8.ofNat (48 + n % 10) :: acc) hf
          simp at this ⊢; omega
        · have := hh k (by rw [Nat.pow_succ] at h; omega) hf (by omega)
          rw [List.length_cons] at this
          rw [Nat.pow_succ]
          constructor
          · intro h; have := this.1 (by omega); omega
          · intro h; have := this.2 (by omega); omega

theorem lt_pow_self (n : Nat) : n < 10 ^ (n + 1) := by
  have h1 : n + 1 < 10 ^ (n + 1) := Nat.lt_pow_self (by omega)
  omega

theorem natBytes_value (n : Nat) : Spec.decimalValue (natBytes n) = n :=
  digitsGo_value (n + 1) n [] (lt_pow_self n) (by omega)

theorem natBytes_mem (n : Nat) : ∀ d ∈ natBytes n, 48 ≤ d ∧ d ≤ 57 := digitsGo_mem _ _ _ (by simp)

theorem natBytes_length (n k : Nat) (hk : 0 < k) : (natBytes n).length ≤ k ↔ n < 10 ^ k := by
  have := digitsGo_length (n + 1) n [] k (lt_pow_self n) (by omega) hk
  simpa [natBytes] using this

theorem natBytes_ne (n : Nat) : natBytes n ≠ [] := by
  intro h
  have h1 := natBytes_value n
  rw [h] at h1
  simp [Spec.decimalValue] at h1
  subst h1
  exact absurd h (by decide)

theorem natBytes_mono {n m : Nat} (h : n ≤ m) : (natBytes n).length ≤ (natBytes m).length := by
  have hm : 0 < (natBytes m).length := List.length_pos_iff.2 (natBytes_ne m)
  rw [natBytes_length n _ hm]
  have := (natBytes_length m _ hm).1 (Nat.le_refl _)
  omega

theorem decimalValue_zeros (k : Nat) (ds : Bytes) :
    Spec.decimalValue (List.replicate k 48 ++ ds) = Spec.decimalValue ds := by
  induction k with
  | zero => rfl
  | succ k ih =>
    rw [List.replicate_succ, List.cons_append, Spec.decimalValue, List.foldl_cons]
    exact ih

theorem wrap64_id {i : Int} (h1 : -(2 ^ 63) ≤ i) (h2 : i < 2 ^ 63) : wrap64 i = i := by
  rw [wrap64, Int.bmod]
  have : ((2 ^ 64 : Nat) : Int) = 18446744073709551616 := by decide
  simp only [this]
  split <;> omega

theorem runeCount_ascii : ∀ (s : Bytes), (∀ b ∈ s, b < 128) → runeCount s = s.length := by
  intro s
  induction s with
  | nil => intro _; rfl
  | cons b s ih =>
    intro h
    have hb : b < 0x80 := h b (by simp)
    have hd : decodeRune (b :: s) = (b.toNat, 1) := by simp only [decodeRune]; rw [if_pos hb]
    rw [runeCount, runeCountGo, hd]
    have h2 := ih fun x hx => h x (List.mem_cons_of_mem _ hx)
    rw [runeCount] at h2
    simp only [Nat.sub_self, h2, List.length_cons]; omega

/-! ## The lines of an item -/

/-- All lines but the first one with `k` spaces in front of them. -/
def indentTail (k : Nat) : List Bytes → List Bytes
  | [] => []
  | l :: ls => l :: ls.map (List.replicate k 32 ++ ·)

theorem multiGo_first (indent : Bytes) (ls : List Bytes) (h : ls ≠ []) :
    multiLineListItemGo indent false ls = indent ++ multiLineListItemGo indent true ls := by
  cases ls with
  | nil => exact absurd rfl h
  | cons l ls => simp [multiLineListItemGo]

theorem multi_nl (k : Nat) (s : Bytes) :
    multiLineListItem (10 :: s) k = 10 :: (List.replicate k 32 ++ multiLineListItem s k) := by
  rw [multiLineListItem, splitOn_sep, multiLineListItemGo, if_neg (splitOn_nonempty _ _),
    multiGo_first _ _ (splitOn_nonempty _ _)]
  simp [multiLineListItem, replaceAll, replaceGo]

theorem multi_other (k : Nat) {b : UInt8} (s : Bytes) (hb : b ≠ 10) (h : ¬ codeNewline <+: b :: s) :
    multiLineListItem (b :: s) k = b :: multiLineListItem s k := by
  rw [multiLineListItem, multiLineListItem]
  have hpre : ∀ l ls, splitOn 10 s = l :: ls → l <+: s := by
    intro l ls e
    have := join_split 10 s
    rw [e] at this
    cases ls with
    | nil => simp [joinWith] at this; rw [this]; exact List.prefix_refl _
    | cons m ms => simp only [joinWith] at this; rw [← this]; exact List.prefix_append _ _
  obtain ⟨l, ls, e⟩ : ∃ l ls, splitOn 10 s = l :: ls := by
    cases e : splitOn 10 s with
    | nil => exact absurd e (splitOn_nonempty _ _)
    | cons l ls => exact ⟨l, ls, rfl⟩
  have e2 : splitOn 10 (b :: s) = (b :: l) :: ls := by simp [splitOn, hb, e]
  rw [e2, e, multiLineListItemGo, multiLineListItemGo, replaceAll_nomatch]
  · simp
  · intro h'
    exact h (h'.trans (by have := hpre l ls e; obtain ⟨t, rfl⟩ := this; exact ⟨t, rfl⟩))

theorem multi_code (k : Nat) (s : Bytes) :
    multiLineListItem (codeNewline ++ s) k = codeNewline ++ (List.replicate k 32 ++ multiLineListItem s k) := by
  rw [multiLineListItem, multiLineListItem]
  obtain ⟨l, ls, e⟩ : ∃ l ls, splitOn 10 s = l :: ls := by
    cases e : splitOn 10 s with
    | nil => exact absurd e (splitOn_nonempty _ _)
    | cons l ls => exact ⟨l, ls, rfl⟩
  have e2 : splitOn 10 (codeNewline ++ s) = (codeNewline ++ l) :: ls := by simp [codeNewline, splitOn, e]
  rw [e2, e, multiLineListItemGo, multiLineListItemGo, replaceAll_match _ _ _ (by decide)]
  simp

theorem restore_nl (s : Bytes) : restoreCodeNewlines (10 :: s) = 10 :: restoreCodeNewlines s :=
  replaceAll_cut [10] (v := 10) (by decide) (by decide) [] s

theorem restore_cut {v : UInt8} (hv : v ∉ codeNewline) (a b : Bytes) :
    restoreCodeNewlines (a ++ v :: b) = restoreCodeNewlines a ++ v :: restoreCodeNewlines b :=
  replaceAll_cut [10] hv (by decide) a b

theorem restore_spaces (k : Nat) (s : Bytes) :
    restoreCodeNewlines (List.replicate k 32 ++ s) = List.replicate k 32 ++ restoreCodeNewlines s := by
  induction k with
  | zero => rfl
  | succ k ih =>
    rw [List.replicate_succ, List.cons_append]
    have := restore_cut (v := 32) (by decide) [] (List.replicate k 32 ++ s)
    simp only [List.nil_append] at this
    rw [this, ih]; rfl

theorem multi_prefix (k : Nat) (s : Bytes) (h : [128, 130] <+: multiLineListItem s k) : [128, 130] <+: s := by
  have step : ∀ (c : UInt8) (s : Bytes) (t : Bytes), c ≠ 239 → c ≠ 10 → c :: t <+: multiLineListItem s k →
      ∃ s', s = c :: s' ∧ t <+: multiLineListItem s' k := by
    intro c s t hc1 hc2 h
    cases s with
    | nil => simp [multiLineListItem, splitOn, multiLineListItemGo, replaceAll_nil] at h
    | cons b s =>
      by_cases hb : b = 10
      · subst hb; rw [multi_nl, List.cons_prefix_cons] at h; exact absurd h.1 hc2
      · by_cases hp : codeNewline <+: b :: s
        · obtain ⟨t', e⟩ := hp
          rw [← e, multi_code] at h
          simp only [codeNewline, List.cons_append, List.cons_prefix_cons] at h
          exact absurd h.1 hc1
        · rw [multi_other k s hb hp, List.cons_prefix_cons] at h
          obtain ⟨rfl, h⟩ := h
          exact ⟨s, rfl, h⟩
  obtain ⟨s1, rfl, h1⟩ := step 128 s [130] (by decide) (by decide) h
  obtain ⟨s2, rfl, -⟩ := step 130 s1 [] (by decide) (by decide) h1
  exact ⟨s2, rfl⟩

/-- After the code newlines are restored every line but the first is indented. -/
theorem restore_multi (k : Nat) (c : Bytes) :
    restoreCodeNewlines (multiLineListItem c k) =
      replaceAll [10] (10 :: List.replicate k 32) (restoreCodeNewlines c) := by
  refine replaceAll_induct (old := codeNewline) (by decide)
    (P := fun c => restoreCodeNewlines (multiLineListItem c k) =
      replaceAll [10] (10 :: List.replicate k 32) (restoreCodeNewlines c)) rfl ?_ ?_ c
  · intro s ih
    have r : restoreCodeNewlines (codeNewline ++ s) = 10 :: restoreCodeNewlines s := by
      rw [restoreCodeNewlines, replaceAll_match _ _ _ (by decide)]; rfl
    rw [multi_code, r, ← List.singleton_append (l := restoreCodeNewlines s), replaceAll_match _ _ _ (by decide), ← ih,
      restoreCodeNewlines, replaceAll_match _ _ _ (by decide)]
    have := restore_spaces k (multiLineListItem s k)
    rw [restoreCodeNewlines] at this
    rw [this]; simp [restoreCodeNewlines]
  · intro b s hp ih
    by_cases hb : b = 10
    · subst hb
      rw [multi_nl, restore_nl, restore_nl, restore_spaces, ih, ← List.singleton_append (l := restoreCodeNewlines s),
        replaceAll_match _ _ _ (by decide)]
      simp
    · have r : ∀ s, ¬ codeNewline <+: b :: s → restoreCodeNewlines (b :: s) = b :: restoreCodeNewlines s := by
        intro s h; exact replaceAll_nomatch h
      rw [multi_other k s hb hp, r s hp, r, ih, replaceAll_nomatch]
      · rw [List.cons_prefix_cons]; exact fun h => hb h.1.symm
      · intro h
        apply hp
        rw [codeNewline, List.cons_prefix_cons] at h ⊢
        exact ⟨h.1, multi_prefix k s h.2⟩

theorem split_other' {b : UInt8} (hb : b ≠ 10) (s : Bytes) :
    splitOn 10 (b :: s) = match splitOn 10 s with | [] => [] | l :: ls => (b :: l) :: ls := by
  obtain ⟨l, ls, e1, e2⟩ := splitOn_other hb s
  rw [e1, e2]

theorem split_indent (k : Nat) : ∀ s : Bytes,
    splitOn 10 (replaceAll [10] (10 :: List.replicate k 32) s) = indentTail k (splitOn 10 s) := by
  intro s
  induction s with
  | nil => rfl
  | cons b s ih =>
    by_cases hb : b = 10
    · subst hb
      rw [← List.singleton_append (l := s), replaceAll_match _ _ _ (by decide), List.cons_append, splitOn_sep,
        List.singleton_append, splitOn_sep, indentTail]
      congr 1
      have h2 : ∀ (k : Nat) (t : Bytes), splitOn 10 (List.replicate k 32 ++ t) =
          match splitOn 10 t with | [] => [] | l :: ls => (List.replicate k 32 ++ l) :: ls := by
        intro k t
        induction k with
        | zero => cases e : splitOn 10 t <;> simp [e]
        | succ k ihk =>
          rw [List.replicate_succ, List.cons_append, split_other' (by decide), ihk]
          cases e : splitOn 10 t with
          | nil => exact absurd e (splitOn_nonempty _ _)
          | cons l ls => rfl
      rw [h2, ih]
      cases e : splitOn 10 s with
      | nil => exact absurd e (splitOn_nonempty _ _)
      | cons l ls => rfl
    · rw [replaceAll_nomatch (by rw [List.cons_prefix_cons]; exact fun h => hb h.1.symm), split_other' hb,
        split_other' hb, ih]
      cases e : splitOn 10 s with
      | nil => exact absurd e (splitOn_nonempty _ _)
      | cons l ls => rfl

end Verif
