import Verif.Proofs.Trim
import Verif.Spec.Visible
/-!
# The visible part of a text
-/

namespace Verif
open Spec

theorem whitespace_shape : ∀ w ∈ whitespace, ∃ b t, w = b :: t ∧ isCont b = false ∧ ∀ c ∈ t, isCont c = true := by
  have h : ∀ w ∈ whitespace, (match w with | [] => false | b :: t => !isCont b && t.all isCont) = true := by decide
  intro w hw
  have := h w hw
  cases w with
  | nil => simp at this
  | cons b t =>
    simp only [Bool.and_eq_true, List.all_eq_true, Bool.not_eq_true'] at this
    exact ⟨b, t, rfl, this.1, this.2⟩

/-- No white space character is the beginning of another. -/
theorem whitespace_prefix_free : ∀ w ∈ whitespace, ∀ w' ∈ whitespace, w.isPrefixOf w' = true → w = w' := by decide

theorem whitespace_unique {w w' s : Bytes} (hw : w ∈ whitespace) (hw' : w' ∈ whitespace) (h : w <+: s) (h' : w' <+: s) :
    w = w' := by
  rcases Nat.le_total w.length w'.length with hl | hl
  · exact whitespace_prefix_free w hw w' hw' (by simpa using List.prefix_of_prefix_length_le h h' hl)
  · exact (whitespace_prefix_free w' hw' w hw (by simpa using List.prefix_of_prefix_length_le h' h hl)).symm

theorem whitespaceAt_some {w s : Bytes} (hw : w ∈ whitespace) (h : w <+: s) : whitespaceAt s = some w.length := by
  rw [whitespaceAt]
  cases hf : whitespace.find? fun w => w.isPrefixOf s with
  | none =>
    have := List.find?_eq_none.1 hf w hw
    simp [h] at this
  | some w' =>
    have h1 := List.mem_of_find?_eq_some hf
    have h2 := List.find?_some hf
    rw [whitespace_unique hw h1 h (by simpa using h2)]
    rfl

theorem whitespaceAt_spec {s : Bytes} {n : Nat} (h : whitespaceAt s = some n) : ∃ w ∈ whitespace, w <+: s ∧ w.length = n := by
  rw [whitespaceAt, Option.map_eq_some_iff] at h
  obtain ⟨w, hf, hn⟩ := h
  exact ⟨w, List.mem_of_find?_eq_some hf, by simpa using List.find?_some hf, hn⟩

theorem whitespaceAt_none {s : Bytes} : whitespaceAt s = none ↔ NoLeadingWhitespace s := by
  rw [whitespaceAt, Option.map_eq_none_iff, List.find?_eq_none]
  simp [NoLeadingWhitespace]

theorem whitespaceAt_append (a b : Bytes) (ha : a ≠ []) (hb : StartsCharacter b) : whitespaceAt (a ++ b) = whitespaceAt a := by
  have key : ∀ w ∈ whitespace, w <+: a ++ b → w <+: a := by
    intro w hw h
    rcases Nat.le_total w.length a.length with hl | hl
    · exact List.prefix_of_prefix_length_le h (List.prefix_append a b) hl
    · have h' := List.prefix_of_prefix_length_le (List.prefix_append a b) h hl
      obtain ⟨t, rfl⟩ := h'
      cases t with
      | nil => simp
      | cons c t =>
        obtain ⟨x, r, he, _, hr⟩ := whitespace_shape _ hw
        cases a with
        | nil => exact absurd rfl ha
        | cons y a =>
          simp only [List.cons_append, List.cons.injEq] at he
          have hc := hr c (by rw [← he.2]; simp)
          obtain ⟨u, hu⟩ := h
          cases b with
          | nil => simp at hu
          | cons z b =>
            simp at hu
            have := hb z (by simp)
            rw [← hu.1] at this
            rw [hc] at this
            simp at this
  cases h : whitespaceAt a with
  | some n =>
    obtain ⟨w, hw, hp, hl⟩ := whitespaceAt_spec h
    rw [whitespaceAt_some hw (hp.trans (List.prefix_append a b)), hl]
  | none =>
    rw [whitespaceAt_none] at h ⊢
    intro w hw hp
    exact h w hw (key w hw hp)

theorem visibleGo_append (b : Bytes) (hb : StartsCharacter b) : ∀ (a : Bytes) (k : Nat), k ≤ a.length →
    visibleGo k (a ++ b) = visibleGo k a ++ visible b
  | [], k, hk => by
    have : k = 0 := by simpa using hk
    subst this
    simp [visibleGo, visible]
  | x :: a, k + 1, hk => by
    rw [List.cons_append, visibleGo, visibleGo, visibleGo_append b hb a k (by simp at hk; omega)]
  | x :: a, 0, _ => by
    rw [List.cons_append, visibleGo, visibleGo, ← List.cons_append, whitespaceAt_append (x :: a) b (by simp) hb]
    cases h : whitespaceAt (x :: a) with
    | none => simp only [List.cons_append]; rw [visibleGo_append b hb a 0 (by omega)]
    | some n =>
      simp only
      obtain ⟨w, hw, hp, hl⟩ := whitespaceAt_spec h
      have := hp.length_le
      rw [visibleGo_append b hb a (n - 1) (by simp at this; omega)]

/-- The visible part of a concatenation. -/
theorem visible_append (a : Bytes) {b : Bytes} (hb : StartsCharacter b) : visible (a ++ b) = visible a ++ visible b :=
  visibleGo_append b hb a 0 (by omega)

theorem visibleGo_skip : ∀ (a s : Bytes), visibleGo a.length (a ++ s) = visible s
  | [], s => by simp [visible]
  | x :: a, s => by rw [List.cons_append, List.length_cons, visibleGo, visibleGo_skip a s]

theorem visible_word {w : Bytes} (hw : w ∈ whitespace) (s : Bytes) : visible (w ++ s) = visible s := by
  obtain ⟨b, t, rfl, _, _⟩ := whitespace_shape w hw
  rw [List.cons_append, visible, visibleGo, ← List.cons_append, whitespaceAt_some hw (List.prefix_append _ _)]
  exact visibleGo_skip t s

theorem visible_ws_append {l : Bytes} (h : AllWhitespace l) (s : Bytes) : visible (l ++ s) = visible s := by
  obtain ⟨ws, hws, rfl⟩ := h
  induction ws with
  | nil => rfl
  | cons w ws ih =>
    rw [List.flatten_cons, List.append_assoc, visible_word (hws w (by simp)), ih (fun w hw => hws w (by simp [hw]))]

theorem visible_ws {l : Bytes} (h : AllWhitespace l) : visible l = [] := by
  have := visible_ws_append h []
  simpa [visible, visibleGo] using this

theorem startsCharacter_ws {l : Bytes} (h : AllWhitespace l) : StartsCharacter l := by
  obtain ⟨ws, hws, rfl⟩ := h
  cases ws with
  | nil => intro b hb; simp at hb
  | cons w ws =>
    obtain ⟨b, t, rfl, h1, _⟩ := whitespace_shape w (hws w (by simp))
    intro c hc
    simp at hc
    subst hc
    exact h1

/-- Trimming does not change the visible part. -/
theorem visible_trimSpace (s : Bytes) : visible (trimSpace s) = visible s := by
  obtain ⟨l, r, hl, hr, hs, _, _⟩ := trimSpace_spec s
  conv => rhs; rw [hs]
  rw [List.append_assoc, visible_ws_append hl, visible_append _ (startsCharacter_ws hr), visible_ws hr, List.append_nil]

theorem startsCharacter_cons {b : UInt8} {s : Bytes} (h : isCont b = false) : StartsCharacter (b :: s) := by
  intro c hc
  simp at hc
  subst hc
  exact h

theorem visible_nil : visible [] = [] := rfl

theorem visible_ascii_cons {b : UInt8} (s : Bytes) (h : b < 128) :
    visible (b :: s) = if [b] ∈ whitespace then visible s else b :: visible s := by
  split
  · rename_i hb
    exact visible_word hb s
  · rename_i hb
    rw [visible, visibleGo]
    have : whitespaceAt (b :: s) = none := by
      rw [whitespaceAt_none]
      intro w hw hp
      have hall : ∀ w ∈ whitespace, ∀ b t, w = b :: t → b < 128 → t = [] := by
        have : ∀ w ∈ whitespace, (match w with | [] => true | b :: t => !decide (b < 128) || t.isEmpty) = true := by decide
        intro w hw b t he hlt
        have := this w hw
        rw [he] at this
        simpa [hlt] using this
      obtain ⟨x, t, rfl, _, _⟩ := whitespace_shape w hw
      obtain ⟨u, hu⟩ := hp
      simp at hu
      obtain ⟨rfl, _⟩ := hu
      have := hall _ hw x t rfl h
      subst this
      exact hb hw
    rw [this]
    rfl

end Verif
