import Verif.Spec.Characters
import Verif.Spec.Visible
import Verif.Proofs.Trim
import Verif.Proofs.Strings
import Verif.Proofs.Visible
/-!
# UTF-8 characters
-/

namespace Verif.Chars
open Verif Verif.Spec

theorem chars_ne (s : Bytes) : ∀ c ∈ chars s, c ≠ [] := by
  induction s with
  | nil => simp [chars]
  | cons b s ih =>
    rw [chars]
    split
    · simp
    · rename_i c cs h
      rw [h] at ih
      split
      · intro x hx; simp only [List.mem_cons] at hx ih; grind
      · intro x hx; simp only [List.mem_cons] at hx ih; grind

theorem chars_flatten (s : Bytes) : (chars s).flatten = s := by
  induction s with
  | nil => rfl
  | cons b s ih =>
    rw [chars]
    split
    · rename_i h; rw [h] at ih; simp at ih; simp [← ih]
    · rename_i c cs h
      rw [h] at ih
      split
      · simp only [List.flatten_cons, List.cons_append] at ih ⊢; rw [ih]
      · simp only [List.flatten_cons, List.cons_append, List.nil_append] at ih ⊢; rw [ih]

theorem chars_head (b : UInt8) (s : Bytes) : ∃ t cs, chars (b :: s) = (b :: t) :: cs := by
  rw [chars]
  split
  · exact ⟨[], [], rfl⟩
  · split
    · exact ⟨_, _, rfl⟩
    · exact ⟨_, _, rfl⟩

theorem chars_cons (b : UInt8) {s : Bytes} (hs : StartsCharacter s) : chars (b :: s) = [b] :: chars s := by
  rw [chars]
  cases s with
  | nil => rfl
  | cons x s =>
    obtain ⟨t, cs, h⟩ := chars_head x s
    rw [h]
    have := hs x (by simp)
    simp [this]

theorem chars_append (a : Bytes) {b : Bytes} (hb : StartsCharacter b) : chars (a ++ b) = chars a ++ chars b := by
  induction a with
  | nil => rfl
  | cons x a ih =>
    rw [List.cons_append, chars, ih, chars]
    cases h : chars a with
    | nil =>
      have ha : a = [] := by have := chars_flatten a; rw [h] at this; simpa using this.symm
      rw [List.nil_append]
      cases b with
      | nil => simp [chars]
      | cons y b =>
        obtain ⟨t, cs, h⟩ := chars_head y b
        rw [h]
        have := hb y (by simp)
        simp [this]
    | cons c cs =>
      simp only [List.cons_append]
      split <;> simp

theorem isChar_shape {c : Bytes} (h : isChar c = true) : ∃ b t, c = b :: t ∧ isCont b = false ∧ (∀ x ∈ t, isCont x = true) ∧
    (t = [] → b < 128) ∧ (t ≠ [] → 128 ≤ b) := by
  have low : ∀ b : UInt8, b < 0x80 → isCont b = false := forall_u8 (by decide +kernel)
  have high : ∀ b : UInt8, 0xC0 ≤ b → isCont b = false := forall_u8 (by decide +kernel)
  have c0 : ∀ b : UInt8, 0xE0 ≤ b → 0xC0 ≤ b ∧ 128 ≤ b := forall_u8 (by decide +kernel)
  have c1 : ∀ b : UInt8, 0xF0 ≤ b → 0xC0 ≤ b ∧ 128 ≤ b := forall_u8 (by decide +kernel)
  have c2 : ∀ b : UInt8, 0xC0 ≤ b → 128 ≤ b := forall_u8 (by decide +kernel)
  unfold isChar at h
  split at h
  · rename_i a
    exact ⟨a, [], rfl, low a (by simpa using h), by simp, fun _ => by simpa using h, by simp⟩
  · rename_i a b
    simp only [Bool.and_eq_true, decide_eq_true_eq] at h
    exact ⟨a, [b], rfl, high a h.1.1, by simp [h], by simp, fun _ => c2 _ h.1.1⟩
  · rename_i a b c
    simp only [Bool.and_eq_true, decide_eq_true_eq] at h
    exact ⟨a, [b, c], rfl, high a (c0 _ h.1.1.1).1, by simp [h], by simp, fun _ => (c0 _ h.1.1.1).2⟩
  · rename_i a b c d
    simp only [Bool.and_eq_true, decide_eq_true_eq] at h
    exact ⟨a, [b, c, d], rfl, high a (c1 _ h.1.1.1.1).1, by simp [h], by simp, fun _ => (c1 _ h.1.1.1.1).2⟩
  · exact absurd h (by simp)

theorem chars_conts (b : UInt8) (t : Bytes) (ht : ∀ x ∈ t, isCont x = true) {s : Bytes} (hs : StartsCharacter s) :
    chars (b :: t ++ s) = (b :: t) :: chars s := by
  induction t generalizing b with
  | nil => exact chars_cons b hs
  | cons x t ih =>
    rw [List.cons_append, chars, ih x (fun y hy => ht y (by simp [hy]))]
    simp [ht x (by simp)]

theorem chars_char {c s : Bytes} (h : isChar c = true) (hs : StartsCharacter s) : chars (c ++ s) = c :: chars s := by
  obtain ⟨b, t, rfl, -, ht, -⟩ := isChar_shape h
  exact chars_conts b t ht hs

theorem starts_char {c : Bytes} (s : Bytes) (h : isChar c = true) : StartsCharacter (c ++ s) := by
  obtain ⟨b, t, rfl, hb, -⟩ := isChar_shape h
  intro x hx
  simp at hx
  rw [← hx]; exact hb

theorem utf8_starts {s : Bytes} (h : Utf8 s) : StartsCharacter s := by
  cases s with
  | nil => intro b hb; simp at hb
  | cons b s =>
    obtain ⟨t, cs, e⟩ := chars_head b s
    have := h (b :: t) (by rw [e]; simp)
    intro x hx
    simp at hx
    subst hx
    obtain ⟨b', t', e', hb, -⟩ := isChar_shape this
    simp only [List.cons.injEq] at e'
    rw [e'.1]; exact hb

theorem utf8_nil : Utf8 [] := by intro c hc; simp [chars] at hc

theorem utf8_char {c s : Bytes} (h : isChar c = true) (hs : Utf8 s) : Utf8 (c ++ s) := by
  intro x hx
  rw [chars_char h (utf8_starts hs)] at hx
  rcases List.mem_cons.1 hx with rfl | hx
  · exact h
  · exact hs x hx

/-- Induction over the characters of a text. -/
theorem utf8_induct {P : Bytes → Prop} (h0 : P []) (h1 : ∀ c s, isChar c = true → Utf8 s → P s → P (c ++ s)) :
    ∀ s, Utf8 s → P s := by
  have key : ∀ cs : List Bytes, (∀ c ∈ cs, isChar c = true) → Utf8 cs.flatten ∧ P cs.flatten := by
    intro cs
    induction cs with
    | nil => intro _; exact ⟨utf8_nil, h0⟩
    | cons c cs ih =>
      intro h
      obtain ⟨i1, i2⟩ := ih fun x hx => h x (by simp [hx])
      exact ⟨utf8_char (h c (by simp)) i1, h1 c _ (h c (by simp)) i1 i2⟩
  intro s hs
  have := (key (chars s) hs).2
  rwa [chars_flatten] at this

theorem utf8_append {a b : Bytes} (ha : Utf8 a) (hb : Utf8 b) : Utf8 (a ++ b) := by
  intro c hc
  rw [chars_append a (utf8_starts hb)] at hc
  rcases List.mem_append.1 hc with h | h
  · exact ha c h
  · exact hb c h

theorem utf8_prefix {a b : Bytes} (h : Utf8 (a ++ b)) (hb : Utf8 b) : Utf8 a := by
  intro c hc
  exact h c (by rw [chars_append a (utf8_starts hb)]; simp [hc])

theorem starts_of_char {c s : Bytes} (h : isChar c = true) (hu : Utf8 (c ++ s)) : StartsCharacter s := by
  cases s with
  | nil => intro b hb; simp at hb
  | cons x s =>
    intro y hy
    simp at hy
    subst hy
    cases hx : isCont x with
    | false => rfl
    | true =>
      exfalso
      obtain ⟨b, t, rfl, hb, ht, -⟩ := isChar_shape h
      -- the first character of the text would be longer
      have key : ∀ (t : Bytes) (b : UInt8), (∀ z ∈ t, isCont z = true) → ∃ u cs, chars (b :: t ++ x :: s) = (b :: t ++ x :: u) :: cs := by
        intro t
        induction t with
        | nil =>
          intro b _
          obtain ⟨u, cs, e⟩ := chars_head x s
          refine ⟨u, cs, ?_⟩
          rw [List.cons_append, List.nil_append, chars, e]
          simp [hx]
        | cons z t ih =>
          intro b hz
          obtain ⟨u, cs, e⟩ := ih z fun w hw => hz w (by simp [hw])
          refine ⟨u, cs, ?_⟩
          rw [List.cons_append, chars, e]
          simp [hz z (by simp)]
      obtain ⟨u, cs, e⟩ := key t b ht
      have h2 := hu (b :: t ++ x :: u) (by rw [e]; simp)
      revert h h2
      have a1 : ∀ a : UInt8, 0xE0 ≤ a → 0xC0 ≤ a := forall_u8 (by decide +kernel)
      clear key e hu ht
      have n1 : ∀ a : UInt8, a < 0x80 → ¬ 0xC0 ≤ a ∧ ¬ 0xE0 ≤ a ∧ ¬ 0xF0 ≤ a := forall_u8 (by decide +kernel)
      have n2 : ∀ a : UInt8, a < 0xE0 → ¬ 0xE0 ≤ a ∧ ¬ 0xF0 ≤ a := forall_u8 (by decide +kernel)
      have n3 : ∀ a : UInt8, a < 0xF0 → ¬ 0xF0 ≤ a := forall_u8 (by decide +kernel)
      rcases t with _ | ⟨t1, _ | ⟨t2, _ | ⟨t3, _ | ⟨t4, t⟩⟩⟩⟩ <;> rcases u with _ | ⟨u1, _ | ⟨u2, _ | ⟨u3, u⟩⟩⟩ <;>
        simp only [isChar, List.cons_append, List.nil_append, Bool.and_eq_true, decide_eq_true_eq] <;> grind

theorem utf8_suffix {a b : Bytes} (h : Utf8 (a ++ b)) (ha : Utf8 a) : Utf8 b := by
  revert h
  refine utf8_induct (P := fun a => Utf8 (a ++ b) → Utf8 b) (fun h => h) ?_ a ha
  intro c s hc _ ih h
  apply ih
  rw [List.append_assoc] at h
  have hs := starts_of_char hc h
  intro x hx
  exact h x (by rw [chars_char hc hs]; simp [hx])

theorem utf8_ascii {b : UInt8} (h : b < 128) {s : Bytes} (hs : Utf8 s) : Utf8 (b :: s) :=
  utf8_char (c := [b]) (by simpa [isChar] using h) hs

theorem utf8_of_ascii {s : Bytes} (h : ∀ b ∈ s, b < 128) : Utf8 s := by
  induction s with
  | nil => exact utf8_nil
  | cons b s ih => exact utf8_ascii (h b (by simp)) (ih fun x hx => h x (by simp [hx]))

/-! ## Visible characters -/

/-- Does the character count as visible? -/
def vis (c : Bytes) : Bool := decide (c ∉ whitespace ∧ c ≠ [7] ∧ c ≠ [239, 128, 130])

theorem visibleChars_eq (s : Bytes) : visibleChars s = (chars s).filter vis := rfl

theorem vis_append {a b : Bytes} (hb : Utf8 b) : visibleChars (a ++ b) = visibleChars a ++ visibleChars b := by
  rw [visibleChars_eq, chars_append a (utf8_starts hb), List.filter_append]; rfl

theorem vis_append' {a b : Bytes} (hb : StartsCharacter b) : visibleChars (a ++ b) = visibleChars a ++ visibleChars b := by
  rw [visibleChars_eq, chars_append a hb, List.filter_append]; rfl

theorem vis_nil : visibleChars [] = [] := rfl

theorem vis_char {c s : Bytes} (h : isChar c = true) (hs : Utf8 s) :
    visibleChars (c ++ s) = if vis c then c :: visibleChars s else visibleChars s := by
  rw [visibleChars_eq, chars_char h (utf8_starts hs), List.filter_cons]; rfl

theorem vis_ascii {b : UInt8} (h : b < 128) {s : Bytes} (hs : Utf8 s) :
    visibleChars (b :: s) = if vis [b] then [b] :: visibleChars s else visibleChars s :=
  vis_char (c := [b]) (by simpa [isChar] using h) hs

theorem whitespace_char : ∀ w ∈ whitespace, isChar w = true := by decide

theorem utf8_ws {l : Bytes} (h : AllWhitespace l) : Utf8 l := by
  obtain ⟨ws, h1, rfl⟩ := h
  induction ws with
  | nil => exact utf8_nil
  | cons w ws ih =>
    exact utf8_char (whitespace_char w (h1 w (by simp))) (ih fun x hx => h1 x (by simp [hx]))

theorem vis_ws {l : Bytes} (h : AllWhitespace l) : visibleChars l = [] := by
  obtain ⟨ws, h1, rfl⟩ := h
  induction ws with
  | nil => rfl
  | cons w ws ih =>
    have hw : vis w = false := by simp [vis, h1 w (by simp)]
    rw [List.flatten_cons, vis_char (whitespace_char w (h1 w (by simp)))
      (utf8_ws ⟨ws, fun x hx => h1 x (by simp [hx]), rfl⟩), hw]
    simp [ih fun x hx => h1 x (by simp [hx])]

end Verif.Chars
