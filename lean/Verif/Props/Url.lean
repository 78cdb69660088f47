import Verif.Model.Url
import Verif.Spec.Url
import Verif.Proofs.Strings
import Verif.Proofs.Trim
/-!
# Properties C25-C26: link destinations and queries
-/
set_option linter.unusedSimpArgs false

namespace Verif.Props
open Verif Verif.Url

/-! ## C25 -/

theorem percentEncode_mem (s : Bytes) : ∀ b ∈ percentEncode s, b ∉ b!" []()<>" := by
  intro b hb
  rw [percentEncode, replaceBytes, List.mem_flatMap] at hb
  obtain ⟨a, -, ha⟩ := hb
  revert ha
  repeat' split
  all_goals simp
  all_goals grind

theorem percentEncode_of_mem (s : Bytes) (b : UInt8) (hb : b ∈ percentEncode s) (h : b ∉ b!"%0258BCDE39") : b ∈ s := by
  rw [percentEncode, replaceBytes, List.mem_flatMap] at hb
  obtain ⟨a, hs, ha⟩ := hb
  revert ha
  repeat' split
  all_goals simp at h ⊢
  all_goals grind

/-- **C25**: the destination of every link and image has no space, no square or round bracket and no angle bracket, whatever
the URL parser does. -/
theorem c25_no_brackets (lib : UrlLib) (rawURL domain : Bytes) :
    ∀ b ∈ assembleAbsoluteURL lib rawURL domain, b ∉ b!" []()<>" := by
  simp only [assembleAbsoluteURL]
  split
  · rename_i h; rw [h]; decide
  · split
    · exact percentEncode_mem _
    · split
      · exact percentEncode_mem _
      · exact percentEncode_mem _

/-- **C25**: the destination has no line feed, unless the URL library puts one into it. -/
theorem c25_no_newline (lib : UrlLib) (hlib : ∀ u, 10 ∉ lib.toString u) (rawURL domain : Bytes) :
    10 ∉ assembleAbsoluteURL lib rawURL domain := by
  have hr : ∀ s : Bytes, 10 ∉ replaceAll [9] b!"%09" (replaceAll [10] b!"%0A" s) := by
    intro s
    rw [replaceAll_one, replaceAll_one]
    rw [List.mem_flatMap]
    rintro ⟨a, ha, h⟩
    rw [List.mem_flatMap] at ha
    obtain ⟨b, hb, ha⟩ := ha
    have ha10 : a ≠ 10 := by
      split at ha
      · rintro rfl; exact absurd ha (by decide)
      · simp at ha; subst ha; assumption
    split at h
    · exact absurd h (by decide)
    · simp at h; exact ha10 h.symm
  have hp : ∀ s : Bytes, 10 ∉ s → 10 ∉ percentEncode s := fun s h h' => h (percentEncode_of_mem s 10 h' (by decide))
  simp only [assembleAbsoluteURL]
  split
  · rename_i h; rw [h]; decide
  · split
    · exact hp _ (hr _)
    · split
      · exact hp _ (hr _)
      · exact hp _ (hlib _)

/-- **C25** (partial): a CommonMark parser that reads the destination returns it and goes on with what follows, here the
closing parenthesis.  The hypotheses exclude control characters and a backslash at the end: see the counterexamples. -/
theorem c25_destination_partial (lib : UrlLib) (rawURL domain rest : Bytes) (c : UInt8) (hc : c = 41 ∨ c = 32)
    (hctl : ∀ b ∈ assembleAbsoluteURL lib rawURL domain, 32 ≤ b ∧ b ≠ 127)
    (hbs : (assembleAbsoluteURL lib rawURL domain).getLast? ≠ some 92) :
    Spec.readDestination 0 false (assembleAbsoluteURL lib rawURL domain ++ c :: rest) =
      (assembleAbsoluteURL lib rawURL domain, c :: rest) := by
  have hb := c25_no_brackets lib rawURL domain
  generalize assembleAbsoluteURL lib rawURL domain = d at *
  have main : ∀ (d : Bytes) (esc : Bool), (∀ b ∈ d, b ∉ b!" []()<>") → (∀ b ∈ d, 32 ≤ b ∧ b ≠ 127) → d.getLast? ≠ some 92 →
      (d = [] → esc = false) → Spec.readDestination 0 esc (d ++ c :: rest) = (d, c :: rest) := by
    intro d
    induction d with
    | nil =>
      intro esc _ _ _ he
      rw [he rfl]
      rcases hc with rfl | rfl <;> simp [Spec.readDestination]
    | cons b d ih =>
      intro esc h1 h2 h3 _
      have hb1 := h1 b (by simp)
      have hb2 := h2 b (by simp)
      simp at hb1
      have hle : ¬ (b ≤ 32) := by
        intro h
        apply hb1.1
        have := hb2.1
        rw [UInt8.le_iff_toNat_le] at h this
        exact UInt8.toNat_inj.1 (by simp at h this ⊢; omega)
      have hlast : d ≠ [] → d.getLast? ≠ some 92 := by
        intro hd; rw [List.getLast?_cons_of_ne_nil hd] at h3; exact h3
      have hlast' : d.getLast? ≠ some 92 := by
        by_cases hd : d = []
        · subst hd; simp
        · exact hlast hd
      have hrec := fun e he => ih e (fun x hx => h1 x (by simp [hx])) (fun x hx => h2 x (by simp [hx])) hlast' he
      rw [List.cons_append, Spec.readDestination]
      by_cases hesc : (esc && Spec.isPunctuation b) = true
      · simp only [hesc, if_true]
        rw [hrec false (fun _ => rfl)]
      · simp only [hesc, if_false, Bool.false_eq_true]
        have e1 : (decide (b ≤ 32) || decide (b = 127)) = false := by simp [hle, hb2.2]
        simp only [e1, Bool.false_eq_true, if_false]
        rw [if_neg hb1.2.2.2.1, if_neg hb1.2.2.2.2.1, hrec]
        intro hd
        subst hd
        simpa using h3
  exact main d false hb hctl hbs fun _ => rfl

/-- A library for examples: it keeps the URL as it is, and rejects control characters. -/
def exampleLib : UrlLib where
  U := Bytes
  parse s := if s.any (fun b => b < 32 || b = 127) then none else some s
  toString := id
  scheme s := if b!"data:".isPrefixOf s then b!"data" else []
  host _ := []
  rawQuery _ := []
  withRawQuery u _ := u
  resolve _ u := u

example : assembleAbsoluteURL exampleLib b!" /a (b)\nc " [] = b!"/a%20%28b%29%0Ac" := by decide

/-- The full C25 fails: a data URI can end with a backslash, which escapes the closing parenthesis. -/
theorem c25_counterexample_backslash :
    assembleAbsoluteURL exampleLib b!"data:,a\\" [] = b!"data:,a\\" ∧
    Spec.readDestination 0 false (b!"data:,a\\" ++ b!") b") = (b!"data:,a\\)", b!" b") := by decide

/-- The full C25 fails: an URL with a control character does not parse and is written as it is; the control character
ends the destination. -/
theorem c25_counterexample_control :
    assembleAbsoluteURL exampleLib [47, 97, 13, 98] [] = [47, 97, 13, 98] ∧
    Spec.readDestination 0 false ([47, 97, 13, 98] ++ b!")") = (b!"/a", [13, 98, 41]) := by decide

/-! ## C26 -/

/-- `+` as `%20`. -/
def plus (s : Bytes) : Bytes := replaceAll [43] b!"%20" s

theorem plus_eq (s : Bytes) : plus s = s.flatMap fun b => if b = 43 then b!"%20" else [b] := replaceAll_one 43 _ s

theorem plus_cons (b : UInt8) (s : Bytes) : plus (b :: s) = (if b = 43 then b!"%20" else [b]) ++ plus s := by
  simp [plus_eq]

theorem plus_append (a b : Bytes) : plus (a ++ b) = plus a ++ plus b := by simp [plus_eq]

theorem plus_mem {s : Bytes} {b : UInt8} (h : b ∈ plus s) : b ∈ s ∨ b ∈ b!"%20" := by
  rw [plus_eq, List.mem_flatMap] at h
  obtain ⟨a, ha, h⟩ := h
  split at h
  · exact Or.inr h
  · simp at h; subst h; exact Or.inl ha

theorem plus_plus (s : Bytes) : plus (plus s) = plus s := by
  induction s with
  | nil => rfl
  | cons b s ih =>
    rw [plus_cons, plus_append, ih]
    split
    · rfl
    · rename_i h; simp [plus_eq, h]

theorem hex_eq (c : UInt8) : Spec.hexValue c = (unhex c).map UInt8.toNat := by
  revert c; apply forall_u8; decide +kernel

theorem hex_byte (x y : UInt8) : UInt8.ofNat (x.toNat * 16 + y.toNat) = x * 16 + y := by
  apply UInt8.toNat_inj.1
  simp [UInt8.toNat_add, UInt8.toNat_mul]

/-- The string starts with two hexadecimal digits. -/
def hexPair : Bytes → Bool
  | a :: b :: _ => (unhex a).isSome && (unhex b).isSome
  | _ => false

theorem hexPair_plus (s : Bytes) : hexPair (plus s) = hexPair s := by
  have h43 : unhex 43 = none := by decide
  have h37 : unhex 37 = none := by decide
  rcases s with _ | ⟨a, _ | ⟨b, s⟩⟩
  · rfl
  · by_cases ha : a = 43
    · subst ha; decide
    · simp [plus_cons, ha, hexPair]; simp [plus_eq, hexPair]
  · by_cases ha : a = 43
    · subst ha; simp [plus_cons, hexPair, h43, h37]
    · by_cases hb : b = 43
      · subst hb; simp [plus_cons, hexPair, h43, h37, ha]
      · simp [plus_cons, hexPair, ha, hb]

theorem unescape_percent (s : Bytes) (h : hexPair s = false) : queryUnescape (37 :: s) = none := by
  rcases s with _ | ⟨a, _ | ⟨b, s⟩⟩
  · simp [queryUnescape]
  · simp [queryUnescape]
  · rw [queryUnescape]
    cases ha : unhex a <;> cases hb : unhex b <;> simp [hexPair, ha, hb] at h ⊢

theorem decode_percent (s : Bytes) (h : hexPair s = false) : Spec.formDecode (37 :: s) = 37 :: Spec.formDecode s := by
  rcases s with _ | ⟨a, _ | ⟨b, s⟩⟩
  · simp [Spec.formDecode]
  · simp [Spec.formDecode]
  · rw [Spec.formDecode, hex_eq, hex_eq]
    cases ha : unhex a <;> cases hb : unhex b <;> simp [hexPair, ha, hb] at h ⊢

theorem unescape_hex {a b x y : UInt8} (ha : unhex a = some x) (hb : unhex b = some y) (s : Bytes) :
    queryUnescape (37 :: a :: b :: s) = (queryUnescape s).map ((x * 16 + y) :: ·) := by
  rw [queryUnescape, ha, hb]

theorem decode_hex {a b x y : UInt8} (ha : unhex a = some x) (hb : unhex b = some y) (s : Bytes) :
    Spec.formDecode (37 :: a :: b :: s) = (x * 16 + y) :: Spec.formDecode s := by
  rw [Spec.formDecode, hex_eq, hex_eq, ha, hb]
  simp only [Option.map_some]
  rw [hex_byte]

theorem unescape_other {c : UInt8} (h : c ≠ 37) (s : Bytes) :
    queryUnescape (c :: s) = (queryUnescape s).map ((if c = 43 then 32 else c) :: ·) := by
  rw [queryUnescape.eq_def]
  split
  · simp_all
  · simp_all
  · rename_i h' ; simp at h'; obtain ⟨rfl, rfl⟩ := h'
    rw [if_neg h]; split <;> simp_all

theorem decode_other {c : UInt8} (h : c ≠ 37) (s : Bytes) :
    Spec.formDecode (c :: s) = (if c = 43 then 32 else c) :: Spec.formDecode s := by
  rw [Spec.formDecode.eq_def]
  split
  · simp_all
  · simp_all
  · rename_i h' ; simp at h'; obtain ⟨rfl, rfl⟩ := h'; rfl

/-- Induction over an encoded string. -/
theorem percent_induct {P : Bytes → Prop} (h0 : P []) (h1 : ∀ a b x y s, unhex a = some x → unhex b = some y → P s → P (37 :: a :: b :: s))
    (h2 : ∀ s, hexPair s = false → P s → P (37 :: s)) (h3 : ∀ c s, c ≠ 37 → P s → P (c :: s)) : ∀ s, P s := by
  have main : ∀ (n : Nat) (s : Bytes), s.length ≤ n → P s := by
    intro n
    induction n with
    | zero => intro s hs; rw [List.length_eq_zero_iff.1 (Nat.le_zero.1 hs)]; exact h0
    | succ n ih =>
      intro s hs
      cases s with
      | nil => exact h0
      | cons c s =>
        simp at hs
        by_cases hc : c = 37
        · subst hc
          cases hp : hexPair s with
          | false => exact h2 s hp (ih s hs)
          | true =>
            rcases s with _ | ⟨a, _ | ⟨b, s⟩⟩
            · simp [hexPair] at hp
            · simp [hexPair] at hp
            · simp [hexPair, Option.isSome_iff_exists] at hp
              obtain ⟨⟨x, hx⟩, y, hy⟩ := hp
              exact h1 a b x y s hx hy (ih s (by simp at hs; omega))
        · exact h3 c s hc (ih s hs)
  exact fun s => main s.length s (Nat.le_refl _)

theorem not_plus {a x : UInt8} (h : unhex a = some x) : a ≠ 43 := by
  rintro rfl; simp [unhex] at h

/-- Writing a space as `%20` instead of `+` changes nothing for the reader. -/
theorem decode_plus : ∀ s, Spec.formDecode (plus s) = Spec.formDecode s ∧ queryUnescape (plus s) = queryUnescape s := by
  apply percent_induct
  · exact ⟨rfl, rfl⟩
  · intro a b x y s ha hb ⟨ih1, ih2⟩
    have e : plus (37 :: a :: b :: s) = 37 :: a :: b :: plus s := by simp [plus_cons, not_plus ha, not_plus hb]
    rw [e, decode_hex ha hb, decode_hex ha hb, unescape_hex ha hb, unescape_hex ha hb, ih1, ih2]
    exact ⟨rfl, rfl⟩
  · intro s hs ⟨ih1, ih2⟩
    have e : plus (37 :: s) = 37 :: plus s := by simp [plus_cons]
    rw [e, decode_percent _ hs, decode_percent _ (by rw [hexPair_plus]; exact hs), unescape_percent _ hs,
      unescape_percent _ (by rw [hexPair_plus]; exact hs), ih1]
    exact ⟨rfl, rfl⟩
  · intro c s hc ⟨ih1, ih2⟩
    rw [decode_other hc, unescape_other hc, plus_cons]
    by_cases h43 : c = 43
    · subst h43
      have e : (if (43 : UInt8) = 43 then b!"%20" else [43]) ++ plus s = 37 :: 50 :: 48 :: plus s := rfl
      rw [e, decode_hex (x := 2) (y := 0) (by decide) (by decide), unescape_hex (x := 2) (y := 0) (by decide) (by decide), ih1, ih2]
      exact ⟨rfl, rfl⟩
    · simp only [h43, if_false, List.singleton_append]
      rw [decode_other hc, unescape_other hc, ih1, ih2]
      simp [h43]

theorem unescape_decode : ∀ s t, queryUnescape s = some t → Spec.formDecode s = t := by
  apply percent_induct
  · intro t h; simp [queryUnescape] at h; subst h; rfl
  · intro a b x y s ha hb ih t h
    rw [unescape_hex ha hb] at h
    rw [decode_hex ha hb]
    simp at h
    obtain ⟨t', h1, h2⟩ := h
    rw [ih t' h1, h2]
  · intro s hs _ t h
    rw [unescape_percent s hs] at h
    simp at h
  · intro c s hc ih t h
    rw [unescape_other hc] at h
    rw [decode_other hc]
    simp only [Option.map_eq_some_iff] at h
    obtain ⟨t', h1, h2⟩ := h
    rw [ih t' h1, h2]

theorem escape_table (c : UInt8) : (escapeByte c = [c] ∧ c ≠ 37 ∧ c ≠ 43 ∧ c ≠ 38 ∧ c ≠ 61) ∨ (c = 32 ∧ escapeByte c = [43]) ∨
    ∃ a b x y, escapeByte c = [37, a, b] ∧ unhex a = some x ∧ unhex b = some y ∧ x * 16 + y = c ∧ a ≠ 38 ∧ a ≠ 61 ∧ b ≠ 38 ∧ b ≠ 61 := by
  by_cases h32 : c = 32
  · subst h32; exact Or.inr (Or.inl ⟨rfl, rfl⟩)
  by_cases hk : keptInQuery c = true
  · left
    refine ⟨by simp [escapeByte, h32, hk], ?_, ?_, ?_, ?_⟩ <;> (rintro rfl; exact absurd hk (by decide))
  · right; right
    have ht : ∀ c : UInt8, unhex (hexDigit (c / 16)) = some (c / 16) ∧ unhex (hexDigit (c % 16)) = some (c % 16) ∧
        c / 16 * 16 + c % 16 = c ∧ hexDigit (c / 16) ≠ 38 ∧ hexDigit (c / 16) ≠ 61 ∧ hexDigit (c % 16) ≠ 38 ∧ hexDigit (c % 16) ≠ 61 := by
      apply forall_u8; decide +kernel
    exact ⟨_, _, _, _, by simp [escapeByte, h32, hk], ht c⟩

theorem escape_unescape (t : Bytes) : queryUnescape (queryEscape t) = some t := by
  induction t with
  | nil => rfl
  | cons c t ih =>
    have e : queryEscape (c :: t) = escapeByte c ++ queryEscape t := by simp [queryEscape]
    rw [e]
    rcases escape_table c with ⟨h, h1, h2, -⟩ | ⟨rfl, h⟩ | ⟨a, b, x, y, h, h1, h2, h3, -⟩
    · rw [h, List.singleton_append, unescape_other h1, ih]; simp [h2]
    · rw [h, List.singleton_append, unescape_other (by decide), ih]; rfl
    · rw [h, List.cons_append, List.cons_append, List.cons_append, List.nil_append, unescape_hex h1 h2, ih]; simp [h3]

theorem escape_not_mem (t : Bytes) : 38 ∉ queryEscape t ∧ 61 ∉ queryEscape t := by
  induction t with
  | nil => simp [queryEscape]
  | cons c t ih =>
    have e : queryEscape (c :: t) = escapeByte c ++ queryEscape t := by simp [queryEscape]
    rw [e]
    rcases escape_table c with ⟨h, -, -, h1, h2⟩ | ⟨rfl, h⟩ | ⟨a, b, x, y, h, -, -, -, h1, h2, h3, h4⟩
    · rw [h]; simp [ih, Ne.symm h1, Ne.symm h2]
    · rw [h]; simp [ih]
    · rw [h]; simp [ih, Ne.symm h1, Ne.symm h2, Ne.symm h3, Ne.symm h4]

theorem dE_decode (s : Bytes) : Spec.formDecode (decodeAndEncode s) = Spec.formDecode s := by
  rw [decodeAndEncode]
  cases h : queryUnescape s with
  | none => rfl
  | some t =>
    simp only
    rw [unescape_decode s t h, unescape_decode _ t (escape_unescape t)]

theorem dE_not_mem {s : Bytes} {c : UInt8} (hc : c = 38 ∨ c = 61) (h : c ∉ s) : c ∉ decodeAndEncode s := by
  rw [decodeAndEncode]
  cases queryUnescape s with
  | none => exact h
  | some t => 
    rcases hc with rfl | rfl
    · exact (escape_not_mem t).1
    · exact (escape_not_mem t).2

theorem dE_idem (s : Bytes) : decodeAndEncode (decodeAndEncode s) = decodeAndEncode s := by
  simp only [decodeAndEncode]
  cases h : queryUnescape s with
  | none => simp only [h]
  | some t => simp only [escape_unescape]

theorem dE_plus_idem (s : Bytes) : plus (decodeAndEncode (plus (decodeAndEncode s))) = plus (decodeAndEncode s) := by
  have h : decodeAndEncode (plus (decodeAndEncode s)) = plus (decodeAndEncode s) ∨
      decodeAndEncode (plus (decodeAndEncode s)) = decodeAndEncode s := by
    have e : decodeAndEncode (plus (decodeAndEncode s)) =
        (match queryUnescape (decodeAndEncode s) with | none => plus (decodeAndEncode s) | some t => queryEscape t) := by
      conv => lhs; rw [decodeAndEncode, (decode_plus _).2]
      rfl
    rw [e]
    cases hu : queryUnescape (decodeAndEncode s) with
    | none => exact Or.inl rfl
    | some t =>
      right
      have := dE_idem s
      rw [decodeAndEncode, hu] at this
      exact this
  rcases h with h | h
  · rw [h, plus_plus]
  · rw [h]

/-- A part of a query, split at the first equal sign. -/
theorem splitKey_cases (p : Bytes) : (∃ k, p = k ∧ 61 ∉ k ∧ splitKey p = (k, none)) ∨
    ∃ k v, p = k ++ 61 :: v ∧ 61 ∉ k ∧ splitKey p = (k, some v) := by
  induction p with
  | nil => exact Or.inl ⟨[], rfl, by simp, rfl⟩
  | cons c p ih =>
    by_cases hc : c = 61
    · subst hc; exact Or.inr ⟨[], p, rfl, by simp, by simp [splitKey]⟩
    · rcases ih with ⟨k, rfl, h1, h2⟩ | ⟨k, v, rfl, h1, h2⟩
      · exact Or.inl ⟨c :: p, rfl, by simp [Ne.symm hc, h1], by simp [splitKey, hc, h2]⟩
      · exact Or.inr ⟨c :: k, v, rfl, by simp [Ne.symm hc, h1], by simp [splitKey, hc, h2]⟩

theorem splitKey_none {k : Bytes} (h : 61 ∉ k) : splitKey k = (k, none) := by
  rcases splitKey_cases k with ⟨k', rfl, -, h2⟩ | ⟨k', v, rfl, -, -⟩
  · exact h2
  · simp at h

theorem splitKey_some {k v : Bytes} (h : 61 ∉ k) : splitKey (k ++ 61 :: v) = (k, some v) := by
  induction k with
  | nil => simp [splitKey]
  | cons c k ih => simp at h; simp [splitKey, Ne.symm h.1, ih h.2]

theorem encodePart_none {k : Bytes} (h : 61 ∉ k) : encodePart k = decodeAndEncode k := by
  rw [encodePart, splitKey_none h]

theorem encodePart_some {k v : Bytes} (h : 61 ∉ k) : encodePart (k ++ 61 :: v) = decodeAndEncode k ++ 61 :: decodeAndEncode v := by
  rw [encodePart, splitKey_some h]
  cases v with
  | nil => rfl
  | cons c v => simp

theorem keyValue_none {k : Bytes} (h : 61 ∉ k) : Spec.keyValue k = (Spec.formDecode k, none) := by
  rw [Spec.keyValue, if_neg h]
  congr
  have hk : ∀ b ∈ k, decide (b ≠ 61) = true := by intro b hb; simp; rintro rfl; exact h hb
  have := List.takeWhile_append_of_pos (l₂ := []) hk
  simpa using this

theorem keyValue_some {k v : Bytes} (h : 61 ∉ k) : Spec.keyValue (k ++ 61 :: v) = (Spec.formDecode k, some (Spec.formDecode v)) := by
  have hk : ∀ b ∈ k, decide (b ≠ 61) = true := by intro b hb; simp; rintro rfl; exact h hb
  rw [Spec.keyValue, if_pos (by simp), List.takeWhile_append_of_pos hk, List.dropWhile_append_of_pos hk]
  simp

theorem encodePart_keyValue (p : Bytes) : Spec.keyValue (plus (encodePart p)) = Spec.keyValue p ∧
    Spec.keyValue (encodePart p) = Spec.keyValue p := by
  have hp : ∀ k : Bytes, 61 ∉ k → 61 ∉ plus (decodeAndEncode k) := by
    intro k h h'
    rcases plus_mem h' with h' | h'
    · exact dE_not_mem (Or.inr rfl) h h'
    · exact absurd h' (by decide)
  rcases splitKey_cases p with ⟨k, rfl, h, -⟩ | ⟨k, v, rfl, h, -⟩
  · rw [encodePart_none h, keyValue_none h, keyValue_none (hp _ h), keyValue_none (dE_not_mem (Or.inr rfl) h),
      (decode_plus _).1, dE_decode]
    exact ⟨rfl, rfl⟩
  · have e : plus (decodeAndEncode k ++ 61 :: decodeAndEncode v) = plus (decodeAndEncode k) ++ 61 :: plus (decodeAndEncode v) := by
      rw [plus_append, plus_cons]; rfl
    rw [encodePart_some h, keyValue_some h, e, keyValue_some (hp _ h), keyValue_some (dE_not_mem (Or.inr rfl) h),
      (decode_plus _).1, (decode_plus _).1, dE_decode, dE_decode]
    exact ⟨rfl, rfl⟩

theorem encodePart_idem (p : Bytes) : plus (encodePart (plus (encodePart p))) = plus (encodePart p) ∧
    encodePart (encodePart p) = encodePart p := by
  have hp : ∀ k : Bytes, 61 ∉ k → 61 ∉ plus (decodeAndEncode k) := by
    intro k h h'
    rcases plus_mem h' with h' | h'
    · exact dE_not_mem (Or.inr rfl) h h'
    · exact absurd h' (by decide)
  have e : ∀ a b, plus (a ++ 61 :: b) = plus a ++ 61 :: plus b := by
    intro a b; rw [plus_append, plus_cons]; rfl
  rcases splitKey_cases p with ⟨k, rfl, h, -⟩ | ⟨k, v, rfl, h, -⟩
  · rw [encodePart_none h, encodePart_none (hp _ h), encodePart_none (dE_not_mem (Or.inr rfl) h), dE_plus_idem, dE_idem]
    exact ⟨rfl, rfl⟩
  · rw [encodePart_some h, e, encodePart_some (hp _ h), encodePart_some (dE_not_mem (Or.inr rfl) h), e, dE_plus_idem,
      dE_plus_idem, dE_idem, dE_idem]
    exact ⟨rfl, rfl⟩

theorem encodePart_no_amp {p : Bytes} (h : 38 ∉ p) : 38 ∉ encodePart p := by
  rcases splitKey_cases p with ⟨k, rfl, hk, -⟩ | ⟨k, v, rfl, hk, -⟩
  · rw [encodePart_none hk]; exact dE_not_mem (Or.inl rfl) h
  · rw [encodePart_some hk]
    simp at h ⊢
    exact ⟨dE_not_mem (Or.inl rfl) h.1, dE_not_mem (Or.inl rfl) h.2⟩

theorem parse_eq (q : Bytes) : parseAndEncodeQuery q = joinWith 38 ((splitOn 38 q).map encodePart) := by
  rw [parseAndEncodeQuery]
  split
  · rename_i h; subst h; decide
  · rfl

theorem parse_split (q : Bytes) : splitOn 38 (parseAndEncodeQuery q) = (splitOn 38 q).map encodePart := by
  rw [parse_eq, split_join]
  · simp [splitOn_nonempty]
  · intro l hl
    obtain ⟨p, hp, rfl⟩ := List.mem_map.1 hl
    exact encodePart_no_amp (splitOn_no_sep 38 q p hp)

theorem plus_split (s : Bytes) : splitOn 38 (plus s) = (splitOn 38 s).map plus := by
  induction s with
  | nil => rfl
  | cons b s ih =>
    by_cases hb : b = 38
    · subst hb
      have : plus (38 :: s) = 38 :: plus s := by simp [plus_cons]
      rw [this, splitOn_sep, splitOn_sep, ih]; rfl
    · obtain ⟨l, ls, e1, e2⟩ := splitOn_other hb s
      rw [e2, plus_cons, List.map_cons, plus_cons]
      rw [e1] at ih
      split
      · simp [splitOn, ih]
      · simp [splitOn, hb, ih]

theorem encodeQuery_split (q : Bytes) : splitOn 38 (encodeQuery q) = (splitOn 38 q).map (plus ∘ encodePart) := by
  have : encodeQuery q = plus (parseAndEncodeQuery q) := rfl
  rw [this, plus_split, parse_split, List.map_map]

/-- **C26**: the query of a link has the same parameters in the same order as before, with the same keys and values. -/
theorem c26_same_parameters (q : Bytes) : Spec.query (encodeQuery q) = Spec.query q ∧
    Spec.query (parseAndEncodeQuery q) = Spec.query q := by
  simp only [Spec.query]
  rw [encodeQuery_split, parse_split, List.map_map, List.map_map]
  constructor
  · apply List.map_congr_left; intro p _; exact (encodePart_keyValue p).1
  · apply List.map_congr_left; intro p _; exact (encodePart_keyValue p).2

/-- **C26**: encoding twice is encoding once. -/
theorem c26_idempotent (q : Bytes) : encodeQuery (encodeQuery q) = encodeQuery q ∧
    parseAndEncodeQuery (parseAndEncodeQuery q) = parseAndEncodeQuery q := by
  constructor
  · rw [← join_split 38 (encodeQuery (encodeQuery q)), ← join_split 38 (encodeQuery q)]
    congr 1
    rw [join_split, encodeQuery_split, encodeQuery_split, List.map_map]
    apply List.map_congr_left; intro p _; exact (encodePart_idem p).1
  · rw [← join_split 38 (parseAndEncodeQuery (parseAndEncodeQuery q)), ← join_split 38 (parseAndEncodeQuery q)]
    congr 1
    rw [join_split, parse_split, parse_split, List.map_map]
    apply List.map_congr_left; intro p _; exact (encodePart_idem p).2

/-- The query has no space, quote, bracket or other character that is special in a link, except in parts that are
not valid percent encodings; a valid part has only unreserved characters and percent escapes. -/
theorem c26_valid_parts (k : Bytes) (t : Bytes) (h : queryUnescape k = some t) :
    ∀ b ∈ plus (decodeAndEncode k), keptInQuery b = true ∨ b = 37 := by
  intro b hb
  have hmem : ∀ b ∈ queryEscape t, keptInQuery b = true ∨ b = 37 ∨ b = 43 := by
    intro b hb
    rw [queryEscape, List.mem_flatMap] at hb
    obtain ⟨c, -, hc⟩ := hb
    have : ∀ c : UInt8, ∀ b ∈ escapeByte c, keptInQuery b = true ∨ b = 37 ∨ b = 43 := by apply forall_u8; decide +kernel
    exact this c b hc
  rw [decodeAndEncode, h] at hb
  simp only at hb
  rw [plus_eq, List.mem_flatMap] at hb
  obtain ⟨c, hc, hb⟩ := hb
  split at hb
  · simp at hb; rcases hb with rfl | rfl | rfl
    · right; rfl
    · left; decide
    · left; decide
  · rename_i h43
    simp at hb; subst hb
    rcases hmem b hc with h | h | h
    · exact Or.inl h
    · exact Or.inr h
    · exact absurd h h43

theorem plus_escapeByte (b : UInt8) : plus (escapeByte b) = if b ∈ Spec.unreserved then [b] else Spec.percentEscape b := by
  revert b; apply forall_u8; decide +kernel

theorem plus_queryEscape (t : Bytes) : plus (queryEscape t) = Spec.percentEncoded t := by
  rw [Spec.percentEncoded, queryEscape]
  induction t with
  | nil => rfl
  | cons b t ih => rw [List.flatMap_cons, List.flatMap_cons, plus_append, ih, plus_escapeByte]

theorem plus_dE {k t : Bytes} (h : queryUnescape k = some t) : plus (decodeAndEncode k) = Spec.percentEncoded (Spec.formDecode k) := by
  rw [decodeAndEncode, h, unescape_decode k t h]
  exact plus_queryEscape t

/-- **C26**: a key and a value that are valid percent encodings are written in the canonical one: letters, digits, `-`, `.`, `_` and `~` are
written as they are, and every other byte as a percent sign and two digits. -/
theorem c26_canonical (k v s t : Bytes) (hk : queryUnescape k = some s) (hv : queryUnescape v = some t) (h1 : 61 ∉ k) (h2 : 38 ∉ k) (h3 : 38 ∉ v) :
    encodeQuery k = Spec.percentEncoded (Spec.formDecode k) ∧
    encodeQuery (k ++ 61 :: v) = Spec.percentEncoded (Spec.formDecode k) ++ 61 :: Spec.percentEncoded (Spec.formDecode v) := by
  have key : ∀ p, 38 ∉ p → encodeQuery p = plus (encodePart p) := by
    intro p hp
    have h := encodeQuery_split p
    rw [splitOn_of_no_sep hp, List.map_cons, List.map_nil] at h
    have := join_split 38 (encodeQuery p)
    rw [h] at this
    exact this.symm
  constructor
  · rw [key k h2, encodePart_none h1, plus_dE hk]
  · rw [key _ (by simp [h2, h3]), encodePart_some h1, plus_append, plus_cons, if_neg (by decide), plus_dE hk, plus_dE hv]
    rfl

/-- A key with an escaped letter and a value with a space, a slash and a letter. -/
example : encodeQuery b!"%7a=%2f+z" = b!"z=%2F%20z" ∧ queryUnescape b!"%7a" = some b!"z" ∧ queryUnescape b!"%2f+z" = some b!"/ z" := by decide

example : encodeQuery b!"b=1+2&a=%41&c&d=&e=%zz+=" = b!"b=1%202&a=A&c&d=&e=%zz%20=" := by decide

/-! ## C71: addresses and the domain -/

/-- The base address for a domain: the domain itself if it has a host, otherwise the domain with `http://` in front. -/
inductive IsBase (lib : UrlLib) : Bytes → lib.U → Prop
  | itself (d u) : d ≠ [] → lib.parse d = some u → lib.host u ≠ [] → IsBase lib d u
  | http (d u) : d ≠ [] → (∀ v, lib.parse d = some v → lib.host v = []) → lib.parse (b!"http://" ++ d) = some u → lib.host u ≠ [] →
      IsBase lib d u

theorem parseBaseDomain_of {lib : UrlLib} {d : Bytes} {u : lib.U} (h : IsBase lib d u) : parseBaseDomain lib d = some u := by
  cases h with
  | itself hd hp hh =>
    have : (some u).filter (fun u => lib.host u ≠ []) = some u := by simp [Option.filter, hh]
    rw [parseBaseDomain, if_neg hd, hp, this]
  | http hd hn hp hh =>
    rw [parseBaseDomain, if_neg hd]
    have : (lib.parse d).filter (fun u => lib.host u ≠ []) = none := by
      cases hx : lib.parse d with
      | none => rfl
      | some v => simp [hn v hx]
    rw [this, hp]
    simp [hh]

theorem parseBaseDomain_none {lib : UrlLib} {d : Bytes} (h : ∀ u, ¬ IsBase lib d u) : parseBaseDomain lib d = none := by
  rw [parseBaseDomain]
  split
  · rfl
  · rename_i hd
    split
    · rename_i u hu
      rw [Option.filter_eq_some_iff] at hu
      exact absurd (.itself d u hd hu.1 (by simpa using hu.2)) (h u)
    · rename_i hu
      rw [Option.filter_eq_none_iff]
      intro u hp hh
      refine h u (.http d u hd ?_ hp (by simpa using hh))
      intro v hv
      rw [Option.filter_eq_none_iff] at hu
      simpa using hu v hv

/-- **C71**: with a domain, the destination is the address (its query encoded) resolved against the domain by the URL library. -/
theorem c71_resolved (lib : UrlLib) (rawURL domain : Bytes) (u base : lib.U)
    (hctl : 10 ∉ rawURL ∧ 9 ∉ rawURL) (hh : trimSpace rawURL ≠ b!"#")
    (hu : lib.parse (trimSpace rawURL) = some u) (hd : lib.scheme u ≠ b!"data") (hb : IsBase lib domain base) :
    assembleAbsoluteURL lib rawURL domain =
      percentEncode (lib.toString (lib.resolve base (lib.withRawQuery u (encodeQuery (lib.rawQuery u))))) := by
  have hsub : ∀ b ∈ trimSpace rawURL, b ∈ rawURL := by
    obtain ⟨l, r, -, -, he, -⟩ := trimSpace_spec rawURL
    intro b hb
    rw [he]
    simp [hb]
  have e1 : replaceAll [NL] b!"%0A" (trimSpace rawURL) = trimSpace rawURL := replaceAll_id fun h => hctl.1 (hsub _ (h.subset (List.mem_singleton.2 rfl)))
  have e2 : replaceAll [9] b!"%09" (trimSpace rawURL) = trimSpace rawURL := replaceAll_id fun h => hctl.2 (hsub _ (h.subset (by simp)))
  simp only [assembleAbsoluteURL]
  rw [if_neg hh, e1, e2, hu, parseBaseDomain_of hb]
  simp [hd]

/-- **C71**: without a usable domain the address is only encoded. -/
theorem c71_no_domain (lib : UrlLib) (rawURL domain : Bytes) (hb : ∀ base, ¬ IsBase lib domain base) :
    assembleAbsoluteURL lib rawURL domain = assembleAbsoluteURL lib rawURL [] := by
  simp only [assembleAbsoluteURL]
  rw [parseBaseDomain_none hb]
  rfl

/-- **C71**: an absolute address does not depend on the domain, for any library that resolves absolute addresses the same way
against every base. -/
theorem c71_absolute (lib : UrlLib) (hq : ∀ u q, lib.scheme (lib.withRawQuery u q) = lib.scheme u)
    (hr : ∀ b b' u, lib.scheme u ≠ [] → lib.resolve b u = lib.resolve b' u) (rawURL d d' : Bytes) (u b b' : lib.U)
    (hctl : 10 ∉ rawURL ∧ 9 ∉ rawURL) (hu : lib.parse (trimSpace rawURL) = some u) (hs : lib.scheme u ≠ [])
    (hb : IsBase lib d b) (hb' : IsBase lib d' b') :
    assembleAbsoluteURL lib rawURL d = assembleAbsoluteURL lib rawURL d' := by
  simp only [assembleAbsoluteURL]
  have hsub : ∀ b ∈ trimSpace rawURL, b ∈ rawURL := by
    obtain ⟨l, r, -, -, he, -⟩ := trimSpace_spec rawURL
    intro b hb
    rw [he]
    simp [hb]
  have e1 : replaceAll [NL] b!"%0A" (trimSpace rawURL) = trimSpace rawURL := replaceAll_id fun h => hctl.1 (hsub _ (h.subset (List.mem_singleton.2 rfl)))
  have e2 : replaceAll [9] b!"%09" (trimSpace rawURL) = trimSpace rawURL := replaceAll_id fun h => hctl.2 (hsub _ (h.subset (by simp)))
  rw [e1, e2, hu, parseBaseDomain_of hb, parseBaseDomain_of hb']
  simp only
  rw [hr b b' _ (by rw [hq]; exact hs)]

/-- **C71**: the fragment that leads nowhere and data addresses are never resolved. -/
theorem c71_kept (lib : UrlLib) (rawURL d d' : Bytes) (h : trimSpace rawURL = b!"#" ∨
      ∃ u, lib.parse (replaceAll [9] b!"%09" (replaceAll [NL] b!"%0A" (trimSpace rawURL))) = some u ∧ lib.scheme u = b!"data") :
    assembleAbsoluteURL lib rawURL d = assembleAbsoluteURL lib rawURL d' := by
  simp only [assembleAbsoluteURL]
  rcases h with h | ⟨u, hu, hs⟩
  · rw [if_pos h, if_pos h]
  · rw [hu]
    simp [hs]

/-- A library for examples: an address is absolute if it begins with `http://`, others are appended to the base. -/
def joiningLib : UrlLib where
  U := Bytes
  parse s := some s
  toString := id
  scheme s := if b!"http://".isPrefixOf s then b!"http" else []
  host s := if b!"http://".isPrefixOf s then s.drop 7 else []
  rawQuery _ := []
  withRawQuery u _ := u
  resolve b u := if b!"http://".isPrefixOf u then u else b ++ u

example : IsBase joiningLib b!"x.de" b!"http://x.de" :=
  .http _ _ (by decide) (by rintro v h; cases h; decide) rfl (by decide)

example : assembleAbsoluteURL joiningLib b!" /a b " b!"x.de" = b!"http://x.de/a%20b" := by decide
example : assembleAbsoluteURL joiningLib b!"http://y.de/a" b!"x.de" = b!"http://y.de/a" := by decide

end Verif.Props
