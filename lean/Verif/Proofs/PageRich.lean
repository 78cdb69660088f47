import Verif.Proofs.PageSpans
import Verif.Proofs.PageLeaf
/-!
# Elements in a line
-/
namespace Verif.Page
open Verif Verif.Escape Verif.Spec Verif.Commonmark Verif.TextUtils

variable {dig : Nat → Bool} {hs : List Handler} {bullet : Bytes} {st : Style}

/-- The delimiters of an element. -/
def delims (st : Style) (name : Bytes) : Bytes := List.replicate (if name ∈ strongNames then 2 else 1) (st.delim name)

/-- A text behind an element as it is seen: the last one has no space at its end. -/
def seenText (t : Bytes) : List (Inl × Bytes) → Bytes
  | [] => shownLast t
  | _ :: _ => oneSpace t

mutual
/-- What an element is rendered as; `k` says that it is in a link. -/
def inlX (st : Style) (k : Bool) : Inl → List Tok
  | .emph name first rest => rawX (delims st name) ++ (segX k (oneSpace first) ++ (restX st k rest ++ rawX (delims st name)))
  | .code c => rawX (inlineCode c)
  | .link href title first rest => .raw 91 :: (segX true (oneSpace first) ++ (restX st true rest ++ rawX (linkEnd (st.resolve href) title)))
  | .image src title alt => rawX (b!"![" ++ escapeAlt alt ++ linkEnd (st.resolve src) title)
/-- What elements with texts behind them are rendered as. -/
def restX (st : Style) (k : Bool) : List (Inl × Bytes) → List Tok
  | [] => []
  | (i, t) :: rest => inlX st k i ++ (segX k (seenText t rest) ++ restX st k rest)
end

theorem spans_cons (resolve : Bytes → Bytes) (i : Inl) (t : Bytes) (rest : List (Inl × Bytes)) :
    spansRest resolve ((i, t) :: rest) = i.span resolve :: (textSpans (seenText t rest) ++ spansRest resolve rest) := by
  cases rest with
  | nil => simp [spansRest, seenText]
  | cons x rest => simp [spansRest, seenText]

theorem oneSpace_seen (t : Bytes) : Seen (oneSpace t) := (oneSpaceAfter_spec t false).1

theorem oneSpace_ne {t : Bytes} (h : t ≠ []) : oneSpace t ≠ [] := by
  cases t with
  | nil => exact absurd rfl h
  | cons b t =>
    rw [oneSpace, oneSpaceAfter]
    split <;> simp

theorem shownLast_seen (t : Bytes) : Seen (shownLast t) := by
  simp only [shownLast]
  split
  · exact (oneSpace_seen t).of_infix (List.dropLast_prefix _).isInfix
  · exact oneSpace_seen t

theorem shownFirst_seen (t : Bytes) : Seen (shownFirst t) := by
  simp only [shownFirst]
  split
  · exact (oneSpace_seen t).of_infix (List.tail_suffix _).isInfix
  · exact oneSpace_seen t

theorem seenText_seen (t : Bytes) (rest : List (Inl × Bytes)) : Seen (seenText t rest) := by
  cases rest with
  | nil => exact shownLast_seen t
  | cons x rest => exact oneSpace_seen t

/-- What is known of the first of some elements with texts behind them. -/
structure RestHead (st : Style) (ctx : List Around) (v1 : Bytes) (i : Inl) (t : Bytes) (rest : List (Inl × Bytes)) : Prop where
  chars : CharsOK (seenText t rest)
  text : TextIn ctx (seenText t rest)
  elem : i.OK st ctx v1 (seenText t rest)
  last : rest = [] → NoTrailingWhitespace (seenText t rest)
  apart : seenText t rest = [] → ∀ x, rest.head? = some x → (i.isEmph && x.1.isEmph) = false ∧ (i.isCode && x.1.isCode) = false
  next : RestOK st ctx (seenText t rest) rest

theorem _root_.Verif.Spec.RestOK.head {ctx : List Around} {v1 : Bytes} {i : Inl} {t : Bytes} {rest : List (Inl × Bytes)} (h : RestOK st ctx v1 ((i, t) :: rest)) :
    RestHead st ctx v1 i t rest := by
  cases rest with
  | nil =>
    rw [RestOK] at h
    exact ⟨h.1, h.2.2.1, h.2.2.2, fun _ => h.2.1, by simp, by rw [RestOK]; trivial⟩
  | cons x rest =>
    rw [RestOK] at h
    · refine ⟨h.2.1, h.2.2.1, h.2.2.2.1, by simp, fun e => h.1 ?_, h.2.2.2.2⟩
      refine Classical.byContradiction fun hne => oneSpace_ne hne e
    · simp

/-- The delimiters are asterisks or underscores. -/
def StyleOK (st : Style) : Prop := (st.em = 42 ∨ st.em = 95) ∧ (st.strong = 42 ∨ st.strong = 95)

theorem StyleOK.delim (h : StyleOK st) (name : Bytes) : st.delim name = 42 ∨ st.delim name = 95 := by
  rw [Style.delim]; split
  · exact h.2
  · exact h.1

/-! ## What is known of an element -/

structure InlFacts (X : List Tok) : Prop where
  fine : Fine X
  start : ∃ c X', X = .raw c :: X' ∧ c ∈ [33, 42, 91, 95, 96]
  last : ∃ X' c, X = X' ++ [.raw c] ∧ c ∈ [41, 42, 95, 96]
  code : ¬ codeNewline <:+: X.map Tok.byte

theorem noCode_append {a b : Bytes} (ha : ¬ codeNewline <:+: a) (hb : ¬ codeNewline <:+: b) (h : ∀ c, b.head? = some c → c ∉ codeNewline) :
    ¬ codeNewline <:+: a ++ b := by
  intro hi
  rcases cut_infix h hi with h | h
  · exact ha h
  · exact hb h

theorem noCode_of_lt {a : Bytes} (h : 239 ∉ a) : ¬ codeNewline <:+: a := fun hi => h (hi.subset (by decide))

theorem noCode_entity {v : Bytes} (h : ¬ codeNewline <:+: v) : ¬ codeNewline <:+: entityReplace v :=
  fun hi => h (entityReplace_infix (by decide) (by decide) _ hi)

theorem noCode_left : ∀ {a b : Bytes}, (∀ x ∈ a, x ∉ codeNewline) → ¬ codeNewline <:+: b → ¬ codeNewline <:+: a ++ b
  | [], _, _, hb => hb
  | x :: a, b, ha, hb => by
    intro hi
    rw [List.cons_append, List.infix_cons_iff] at hi
    rcases hi with h | h
    · rw [show codeNewline = 239 :: [128, 130] from rfl, List.cons_prefix_cons] at h
      exact ha x (by simp) (by rw [← h.1]; decide)
    · exact noCode_left (fun y hy => ha y (by simp [hy])) hb h

theorem noCode_right {a b : Bytes} (ha : ¬ codeNewline <:+: a) (hb : ∀ x ∈ b, x ∉ codeNewline) : ¬ codeNewline <:+: a ++ b :=
  noCode_append ha (fun hi => hb 239 (hi.subset (by decide)) (by decide)) fun c hc => hb c (List.mem_of_mem_head? hc)

theorem noCode_title {t : Bytes} (h : ¬ codeNewline <:+: t) : ¬ codeNewline <:+: titlePart t := by
  have key : ∀ (x : Bytes) (q : UInt8), ¬ codeNewline <:+: x → q ∉ codeNewline → ¬ codeNewline <:+: 32 :: ([q] ++ x ++ [q]) := by
    intro x q hx hq
    rw [show 32 :: ([q] ++ x ++ [q]) = [32, q] ++ (x ++ [q]) by simp]
    refine noCode_left ?_ (noCode_right hx (by simpa using hq))
    intro y hy
    simp at hy
    rcases hy with rfl | rfl
    · decide
    · exact hq
  rw [titlePart]
  split
  · rw [surroundByQuotes, if_neg (by simpa using ‹t ≠ []›)]
    simp only [surroundBy]
    split
    · refine key _ _ ?_ (by decide)
      rw [show b!"\"" = [34] from rfl, show b!"\\\"" = [92, 34] from rfl, replaceAll_one]
      have : ∀ t : Bytes, (t.flatMap fun x => if x = 34 then [92, 34] else [x]) = encBy 92 (t.map fun x => (x == 34, x)) := by
        intro t
        induction t with
        | nil => rfl
        | cons x t ih =>
          rw [List.flatMap_cons, ih, List.map_cons, encBy_cons]
          by_cases hx : x = 34 <;> simp [hx]
      rw [this]
      intro hi
      have := encBy_infix (by decide) (by decide) _ hi
      rw [List.map_map] at this
      exact h (by simpa [Function.comp_def] using this)
    · split
      · exact key _ _ h (by decide)
      · exact key _ _ h (by decide)
  · exact noCode_of_lt (by simp)

theorem noCode_linkEnd {dest title : Bytes} (hd : AttrOK dest) (ht : AttrOK title) : ¬ codeNewline <:+: linkEnd dest title := by
  rw [linkEnd]
  refine noCode_right (noCode_append (noCode_left (by decide) hd.no_mark) (noCode_title ht.no_mark) ?_) (by decide)
  intro c hc
  rw [titlePart] at hc
  split at hc
  · simp at hc; subst hc; decide
  · simp at hc

theorem rawX_last (a : Bytes) (c : UInt8) : rawX (a ++ [c]) = rawX a ++ [.raw c] := rawX_append a [c]

theorem delims_cons (st : Style) (name : Bytes) : ∃ k, delims st name = st.delim name :: List.replicate k (st.delim name) := by
  rw [delims]; split
  · exact ⟨1, rfl⟩
  · exact ⟨0, rfl⟩

theorem delims_snoc (st : Style) (name : Bytes) : ∃ k, delims st name = List.replicate k (st.delim name) ++ [st.delim name] := by
  rw [delims]; split
  · exact ⟨1, rfl⟩
  · exact ⟨0, rfl⟩

theorem delims_mem {name : Bytes} {b : UInt8} (h : b ∈ delims st name) : b = st.delim name := by
  rw [delims, List.mem_replicate] at h; exact h.2

theorem start_ascii : ∀ c ∈ [33, 42, 91, 95, 96], (∀ w ∈ whitespace, (c : UInt8) ∉ w) ∧ c ∉ codeNewline := by decide
theorem last_ascii : ∀ c ∈ [41, 42, 95, 96], ∀ w ∈ whitespace, (c : UInt8) ∉ w := by decide

theorem noTrailing_entity {v : Bytes} (h : NoTrailingWhitespace v) : NoTrailingWhitespace (entityReplace v) :=
  fun w hw hs => h w hw (entityReplace_suffix _ rfl (ws_chars w hw).2 _ hs)

theorem noLeading_entity {v : Bytes} (h : NoLeadingWhitespace v) : NoLeadingWhitespace (entityReplace v) :=
  fun w hw hs => h w hw (entityReplace_prefix (ws_chars w hw).2 _ hs)

/-- The first character of an element. -/
def startByte (st : Style) : Inl → UInt8
  | .emph name _ _ => st.delim name
  | .code _ => 96
  | .link _ _ _ _ => 91
  | .image _ _ _ => 33

theorem inl_start (k : Bool) {ctx : List Around} {v1 v2 : Bytes} {i : Inl} (h : i.OK st ctx v1 v2) : ∃ X', inlX st k i = .raw (startByte st i) :: X' := by
  cases i with
  | emph name first rest =>
    obtain ⟨n, e⟩ := delims_cons st name
    exact ⟨_, by rw [inlX, e]; rfl⟩
  | code c =>
    rw [Inl.OK] at h
    obtain ⟨s, e⟩ := h.head
    exact ⟨rawX s, by rw [inlX, e]; rfl⟩
  | link href title first rest => exact ⟨_, by rw [inlX]; rfl⟩
  | image src title alt => exact ⟨_, by rw [inlX]; rfl⟩

theorem startByte_mem (hS : StyleOK st) (i : Inl) : startByte st i ∈ [33, 42, 91, 95, 96] := by
  cases i with
  | emph name first rest => rcases hS.delim name with h | h <;> (rw [startByte, h]; decide)
  | _ => simp [startByte]

/-- What is known of elements with texts behind them. -/
structure RestFacts (rest : List (Inl × Bytes)) (X : List Tok) : Prop where
  fine : Fine X
  start : rest = [] ∧ X = [] ∨ rest ≠ [] ∧ ∃ c X', X = .raw c :: X' ∧ c ∈ [33, 42, 91, 95, 96]
  code : ¬ codeNewline <:+: X.map Tok.byte
  trailing : rest ≠ [] → NoTrailingWhitespace (X.map Tok.byte)

theorem RestFacts.head {rest : List (Inl × Bytes)} {X : List Tok} (h : RestFacts rest X) : ∀ c, (X.map Tok.byte).head? = some c → c ∈ [33, 42, 91, 95, 96] := by
  intro c hc
  rcases h.start with ⟨-, rfl⟩ | ⟨-, d, X', rfl, hd⟩
  · cases hc
  · cases hc; exact hd

theorem RestFacts.starter {rest : List (Inl × Bytes)} {X : List Tok} (h : RestFacts rest X) {Y : List Tok} (hY : Starter Y) : Starter (X ++ Y) := by
  rcases h.start with ⟨-, rfl⟩ | ⟨-, c, X', rfl, hc⟩
  · exact hY
  · refine .inr ⟨c, X' ++ Y, rfl, ?_⟩
    revert hc
    exact forall_u8 (P := fun c => c ∈ [33, 42, 91, 95, 96] → c ∈ [33, 42, 91, 93, 95, 96]) (by decide +kernel) c

theorem delims_fine (hS : StyleOK st) (name : Bytes) : Fine (rawX (delims st name)) := rawX_fine fun b hb => by
  rw [delims_mem hb]; rcases hS.delim name with h | h <;> (rw [h]; decide)

/-- A content has no white space at its end. -/
theorem content_trailing {k : Bool} {v : Bytes} (hc : CharsOK v) (hn : Seen v) {rest : List (Inl × Bytes)} {X : List Tok} (h : RestFacts rest X)
    (ht : rest = [] → NoTrailingWhitespace v) : NoTrailingWhitespace ((segX k v ++ X).map Tok.byte) := by
  rw [List.map_append, (segX_seg k hc hn).bytes]
  intro w hw hs
  rcases h.start with ⟨hr, rfl⟩ | ⟨hne, c, X', rfl, hc⟩
  · rw [List.map_nil, List.append_nil] at hs
    exact noTrailing_entity (ht hr) w hw hs
  · rcases List.suffix_or_suffix_of_suffix hs (List.suffix_append _ _) with h1 | h1
    · exact h.trailing hne w hw h1
    · exact (start_ascii c hc).1 w hw (h1.subset (by simp [Tok.byte]))

mutual
theorem inl_facts (hS : StyleOK st) (k : Bool) {ctx : List Around} {v1 v2 : Bytes} : (i : Inl) → i.OK st ctx v1 v2 → InlFacts (inlX st k i)
  | .emph name first rest => by
    intro h
    rw [Inl.OK] at h
    obtain ⟨-, hin, -, hrest⟩ := h
    have hr := rest_facts hS k rest hrest
    have hd := hS.delim name
    have hX := segX_seg k hin.chars (oneSpace_seen first)
    have hf := delims_fine hS name
    have hdc : ∀ x ∈ delims st name, x ∉ codeNewline := fun x hx => by
      rw [delims_mem hx]; rcases hd with h | h <;> (rw [h]; decide)
    refine ⟨by rw [inlX]; exact hf.append (hX.fine.append (hr.fine.append hf)), ?_, ?_, ?_⟩
    · obtain ⟨k, e⟩ := delims_cons st name
      exact ⟨st.delim name, _, by rw [inlX, e]; rfl, by rcases hd with h | h <;> (rw [h]; decide)⟩
    · obtain ⟨n, e⟩ := delims_snoc st name
      refine ⟨rawX (delims st name) ++ (segX k (oneSpace first) ++ (restX st k rest ++ rawX (List.replicate n (st.delim name)))), st.delim name, ?_,
        by rcases hd with h | h <;> (rw [h]; decide)⟩
      rw [inlX]
      have e2 : rawX (delims st name) = rawX (List.replicate n (st.delim name)) ++ [.raw (st.delim name)] := by
        rw [← rawX_last, ← e]
      conv => lhs; arg 2; arg 2; arg 2; rw [e2]
      simp
    · rw [inlX, List.map_append, List.map_append, List.map_append, rawX_byte, hX.bytes, ← List.append_assoc (entityReplace _)]
      exact noCode_left hdc (noCode_right (noCode_append (noCode_entity hin.chars.no_mark) hr.code fun c hc => (start_ascii c (hr.head c hc)).2) hdc)
  | .code c => by
    intro h
    rw [Inl.OK] at h
    obtain ⟨k, e⟩ := h.eq
    refine ⟨by rw [inlX]; exact h.fine, ?_, ?_, ?_⟩
    · obtain ⟨s, e⟩ := h.head
      exact ⟨96, rawX s, by rw [inlX, e]; rfl, by decide⟩
    · exact ⟨_, 96, by rw [inlX, e, List.replicate_succ', ← List.append_assoc, rawX_last], by decide⟩
    · rw [inlX, rawX_byte, e]
      have h96 : ∀ x ∈ List.replicate (k + 1) (96 : UInt8), x ∉ codeNewline := fun x hx => by
        rw [List.mem_replicate] at hx; rw [hx.2]; decide
      rw [List.append_assoc, List.append_assoc, List.append_assoc]
      refine noCode_left h96 (noCode_left ?_ (noCode_right h.no_mark ?_))
      · split <;> decide
      · intro x hx
        rcases List.mem_append.1 hx with hx | hx
        · have : x = 32 := by
            split at hx
            · simpa using hx
            · cases hx
          rw [this]; decide
        · exact h96 x hx
  | .link href title first rest => by
    intro h
    rw [Inl.OK] at h
    obtain ⟨ha, htt, -, hin, -, hrest⟩ := h
    have hr := rest_facts hS true rest hrest
    have hX := segX_seg true hin.chars (oneSpace_seen first)
    refine ⟨by rw [inlX]; exact (rawX_fine (s := [91]) (by decide)).append (hX.fine.append (hr.fine.append (linkEnd_fine ha.toAttrOK htt))),
      ⟨91, _, by rw [inlX], by decide⟩, ?_, ?_⟩
    · refine ⟨.raw 91 :: (segX true (oneSpace first) ++ (restX st true rest ++ rawX (b!"](" ++ st.resolve href ++ titlePart title))), 41, ?_, by decide⟩
      rw [inlX, linkEnd, rawX_last]
      simp
    · have e : (inlX st k (.link href title first rest)).map Tok.byte =
          [91] ++ (entityReplace (oneSpace first) ++ (restX st true rest).map Tok.byte ++ linkEnd (st.resolve href) title) := by
        rw [inlX, List.map_cons, List.map_append, List.map_append, rawX_byte, hX.bytes, List.append_assoc]; rfl
      rw [e]
      exact noCode_left (by decide) (noCode_append
        (noCode_append (noCode_entity hin.chars.no_mark) hr.code fun c hc => (start_ascii c (hr.head c hc)).2)
        (noCode_linkEnd ha.toAttrOK htt) (by intro c hc; simp [linkEnd] at hc; subst hc; decide))
  | .image src title alt => by
    intro h
    rw [Inl.OK] at h
    obtain ⟨ha, htt, hal, -⟩ := h
    have h92 : 92 ∉ alt := fun h => (hal.chars 92 h).2.2.1 rfl
    have hmem : ∀ b ∈ escapeAlt alt, b = 92 ∨ b ∈ alt := by
      intro b hb
      rw [escapeAlt_toks h92, renToks_by] at hb
      have := encBy_mem hb
      rw [altToks, List.map_map] at this
      simpa [Function.comp_def] using this
    refine ⟨?_, ⟨33, _, by rw [inlX]; rfl, by decide⟩, ?_, ?_⟩
    · rw [inlX, rawX_append]
      refine (rawX_fine ?_).append (linkEnd_fine ha.toAttrOK htt)
      intro b hb
      rcases List.mem_append.1 hb with hb | hb
      · exact (by decide : ∀ b ∈ b!"![", b ∉ [0, 7, 10, 13]) b hb
      · rcases hmem b hb with rfl | hb
        · decide
        · exact forall_u8 (P := fun b => 32 ≤ b → b ∉ [0, 7, 10, 13]) (by decide +kernel) b (hal.chars b hb).1
    · refine ⟨rawX (b!"![" ++ escapeAlt alt ++ (b!"](" ++ st.resolve src ++ titlePart title)), 41, ?_, by decide⟩
      rw [inlX, linkEnd, ← rawX_last]
      simp
    · rw [inlX, rawX_byte]
      refine noCode_append (noCode_left (by decide) ?_) (noCode_linkEnd ha.toAttrOK htt) (by intro c hc; simp [linkEnd] at hc; subst hc; decide)
      intro hi
      rw [escapeAlt_toks h92, renToks_by] at hi
      have := encBy_infix (by decide) (by decide) _ hi
      rw [altToks, List.map_map] at this
      refine hal.no_mark ?_
      rw [show [239, 128, 130] = codeNewline from rfl]
      simpa [Function.comp_def] using this
theorem rest_facts (hS : StyleOK st) (k : Bool) {ctx : List Around} {v1 : Bytes} : (rest : List (Inl × Bytes)) → RestOK st ctx v1 rest → RestFacts rest (restX st k rest)
  | [] => fun _ => ⟨by rw [restX]; exact Fine.nil, .inl ⟨rfl, by rw [restX]⟩, by rw [restX]; exact noCode_of_lt (by simp), fun h => absurd rfl h⟩
  | (i, t) :: rest => by
    intro h
    have hh := h.head
    have hi := inl_facts hS k i hh.elem
    have hr := rest_facts hS k rest hh.next
    have hX := segX_seg k hh.chars (seenText_seen t rest)
    obtain ⟨X', c, e, hc⟩ := hi.last
    refine ⟨by rw [restX]; exact hi.fine.append (hX.fine.append hr.fine), .inr ⟨by simp, ?_⟩, ?_, fun _ => ?_⟩
    · obtain ⟨c, X', e, hc⟩ := hi.start
      exact ⟨c, _, by rw [restX, e]; rfl, hc⟩
    · rw [restX, List.map_append, List.map_append, hX.bytes]
      intro hin
      have h1 : ¬ codeNewline <:+: entityReplace (seenText t rest) ++ (restX st k rest).map Tok.byte :=
        noCode_append (noCode_entity hh.chars.no_mark) hr.code fun c hc => (start_ascii c (hr.head c hc)).2
      have h2 := hi.code
      rw [e, List.map_append] at hin h2
      rw [List.append_assoc] at hin
      have hc2 : c ∉ codeNewline := (by decide : ∀ c ∈ [41, 42, 95, 96], (c : UInt8) ∉ codeNewline) c hc
      have h3 : ¬ codeNewline <:+: List.map Tok.byte [.raw c] ++ (entityReplace (seenText t rest) ++ (restX st k rest).map Tok.byte) :=
        noCode_left (by intro x hx; simp [Tok.byte] at hx; rw [hx]; exact hc2) h1
      refine noCode_append (fun h => h2 (h.trans (List.prefix_append _ _).isInfix)) h3 ?_ hin
      intro x hx
      cases hx
      exact hc2
    · rw [restX, List.map_append]
      intro w hw hs
      refine content_trailing (k := k) hh.chars (seenText_seen t rest) hr hh.last w hw (cut_suffix ?_ hs)
      intro x hx
      rw [e] at hx
      simp [Tok.byte] at hx
      rw [← hx]
      exact last_ascii c hc w hw
end

/-! ## Reading -/

theorem spansRest_head (resolve : Bytes → Bytes) (rest : List (Inl × Bytes)) : ∀ t, (spansRest resolve rest).head? ≠ some (.text t) := by
  intro t
  cases rest with
  | nil => simp [spansRest]
  | cons x rest =>
    obtain ⟨i, v⟩ := x
    rw [spans_cons]
    cases i <;> simp [Inl.span]
    split <;> simp

theorem foldr_spans (v : Bytes) {r : List Span} (h : ∀ t, r.head? ≠ some (.text t)) : v.foldr consChar r = textSpans v ++ r := by
  rw [textSpans]
  split
  · next e => rw [e]; rfl
  · next e => rw [foldr_text v r e h]; rfl

/-- What follows a content: nothing, or the end of what is around it. -/
def EndOK (ctx : List Around) (Z : List Tok) : Prop := (ctx = [] ∧ Z = []) ∨ ∃ a ctx' Z', ctx = a :: ctx' ∧ Z = .raw a.close :: Z'

theorem EndOK.starter {ctx : List Around} {Z : List Tok} (h : EndOK ctx Z) (hctx : CtxOK ctx) : Starter Z := by
  rcases h with ⟨-, rfl⟩ | ⟨a, ctx', Z', rfl, rfl⟩
  · exact .inl rfl
  · refine .inr ⟨_, _, rfl, ?_⟩
    have := hctx.mem (b := a.close) (by simp)
    revert this
    exact forall_u8 (P := fun c => c ∈ [42, 93, 95] → c ∈ [33, 42, 91, 93, 95, 96]) (by decide +kernel) _

theorem EndOK.ne {ctx : List Around} {Z : List Tok} (h : EndOK ctx Z) (hne : ctx ≠ []) : Z ≠ [] := by
  rcases h with ⟨h, -⟩ | ⟨a, ctx', Z', -, rfl⟩
  · exact absurd h hne
  · simp

theorem EndOK.head {ctx : List Around} {Z : List Tok} (h : EndOK ctx Z) {rev : Bytes} {b : UInt8} (hb : (renToks (P hs rev Z [])).head? = some b) :
    b ∈ ctx.map Around.close := by
  rcases h with ⟨-, rfl⟩ | ⟨a, ctx', Z', rfl, rfl⟩
  · simp [P, renToks] at hb
  · rw [P, renToks_cons_f] at hb
    cases hb
    simp

/-- The character behind an element. -/
theorem after_elem (hst : IsStock dig hs) (hS : StyleOK st) {k : Bool} {ctx : List Around} (hctx : CtxOK ctx) {v1 : Bytes} {i : Inl} {t : Bytes}
    {rest : List (Inl × Bytes)} (h : RestHead st ctx v1 i t rest) {Z : List Tok} (hZ : Fine Z) (hE : EndOK ctx Z) (rev : Bytes) :
    (i.isCode = true → (renToks (P hs rev (segX k (seenText t rest) ++ (restX st k rest ++ Z)) [])).head? ≠ some 96) ∧
    (∀ name first inner, i = .emph name first inner →
      (renToks (P hs rev (segX k (seenText t rest) ++ (restX st k rest ++ Z)) [])).head? ≠ some (st.delim name)) ∧
    (edge (seenText t rest).head? = true → edge (renToks (P hs rev (segX k (seenText t rest) ++ (restX st k rest ++ Z)) [])).head? = true) := by
  have hr := rest_facts hS k rest h.next
  have hX := segX_seg k h.chars (seenText_seen t rest)
  by_cases hv : seenText t rest = []
  · have hv1 := h.apart hv
    have hemph : ∀ (c : UInt8) (n : Nat), .delim c n ∈ ctx → ∀ name first inner, i = .emph name first inner → st.delim name ≠ c := by
      rintro c n hm name first inner rfl rfl
      have he := h.elem
      rw [Inl.OK] at he
      exact (he.1.same n hm).2 hv
    rw [hv, segX_nil, List.nil_append]
    cases rest with
    | nil =>
      rw [restX, List.nil_append]
      cases hb : (renToks (P hs rev Z [])).head? with
      | none => simp [edge]
      | some b =>
        have hbm := hE.head hb
        refine ⟨?_, ?_, ?_⟩
        · rintro - ⟨⟩
          exact absurd (hctx.mem hbm) (by decide)
        · rintro name first inner hi ⟨⟩
          rcases hctx.close hbm with ⟨-, n, hm⟩ | ⟨hb2, -⟩
          · exact hemph _ n hm name first inner hi rfl
          · rcases hS.delim name with h | h <;> rw [h] at hb2 <;> cases hb2
        · intro _
          have := hctx.mem hbm
          revert this
          exact forall_u8 (P := fun b => b ∈ [42, 93, 95] → edge (some b) = true) (by decide +kernel) b
    | cons x rest =>
      obtain ⟨j, u⟩ := x
      obtain ⟨X', e⟩ := inl_start k h.next.head.elem
      have hj := startByte_mem hS j
      have hb : (renToks (P hs rev (restX st k ((j, u) :: rest) ++ Z) [])).head? = some (startByte st j) := by
        rw [restX, e]; rfl
      rw [hb]
      obtain ⟨a1, a2⟩ := hv1 (j, u) rfl
      refine ⟨?_, ?_, ?_⟩
      · intro hi
        rw [hi] at a2
        cases j with
        | code c => cases a2
        | emph name first inner => rcases hS.delim name with h | h <;> (rw [startByte, h]; decide)
        | link _ _ _ _ => simp [startByte]
        | image _ _ _ => simp [startByte]
      · rintro name first inner rfl
        cases j with
        | emph _ _ _ => cases a1
        | code c => rcases hS.delim name with h | h <;> (rw [startByte, h]; decide)
        | link _ _ _ _ => rcases hS.delim name with h | h <;> (rw [startByte, h]; decide)
        | image _ _ _ => rcases hS.delim name with h | h <;> (rw [startByte, h]; decide)
      · intro _
        revert hj
        exact forall_u8 (P := fun b => b ∈ [33, 42, 91, 95, 96] → edge (some b) = true) (by decide +kernel) _
  · obtain ⟨b, hb, hb2⟩ := seg_head hst hX (hr.fine.append hZ) (hr.starter (hE.starter hctx)) hv rev
    rw [hb]
    refine ⟨?_, ?_, fun he => edge_of hb2 he⟩
    · intro _
      rcases hb2 with ⟨-, hb⟩ | rfl | ⟨rfl, -⟩
      · simpa using hb
      · decide
      · decide
    · rintro name first inner rfl
      have he := h.elem
      rw [Inl.OK] at he
      have hbh := he.1.behind
      rcases hb2 with ⟨hb, -⟩ | rfl | ⟨rfl, -⟩
      · rw [← hb]; exact hbh
      · rcases hS.delim name with h | h <;> (rw [h]; decide)
      · rcases hS.delim name with h | h <;> (rw [h]; decide)

/-- The first character of a content. -/
theorem content_head (hst : IsStock dig hs) (hS : StyleOK st) {k : Bool} {ctx : List Around} (hctx : CtxOK ctx) (hk : .bracket ∈ ctx → k = true) {first : Bytes}
    {rest : List (Inl × Bytes)} (hin : InnerOK first rest) (ht : TextIn ctx (oneSpace first)) (hrest : RestOK st ctx (oneSpace first) rest) {Z : List Tok}
    (hZ : Fine Z) (hE : EndOK ctx Z) (rev : Bytes) :
    ∃ b s, renToks (P hs rev (segX k (oneSpace first) ++ restX st k rest) (encX Z)) = b :: s ∧ (∀ c n, .delim c n ∈ ctx → b ≠ c) ∧
      ((oneSpace first).head?.any isWordByte = true → isWordByte b = true) := by
  have hr := rest_facts hS k rest hrest
  by_cases hv : oneSpace first = []
  · rw [hv, segX_nil, List.nil_append]
    cases rest with
    | nil =>
      rcases hin.nonempty with h | h
      · exact absurd hv (oneSpace_ne h)
      · exact absurd rfl h
    | cons x rest =>
      obtain ⟨j, u⟩ := x
      obtain ⟨X', e⟩ := inl_start k hrest.head.elem
      refine ⟨startByte st j, _, by rw [restX, e]; rfl, ?_, by simp⟩
      intro c n hm
      have hc := hctx c n hm
      have he := hrest.head.elem
      cases j with
      | emph name _ _ =>
        rw [Inl.OK] at he
        intro e
        have := (he.1.same n (by rw [show st.delim name = c from e]; exact hm)).1
        rw [hv] at this
        cases this
      | code c => rcases hc with rfl | rfl <;> simp [startByte]
      | link _ _ _ _ => rcases hc with rfl | rfl <;> simp [startByte]
      | image _ _ _ => rcases hc with rfl | rfl <;> simp [startByte]
  · have hX := segX_seg k hin.chars (oneSpace_seen first)
    have hYf := hr.fine.append hZ
    have hYs := hr.starter (hE.starter hctx)
    have hq := quiet_seg hst hctx hk hin.chars (oneSpace_seen first) hYf hYs
      (fun hne h => hE.ne hne (List.append_eq_nil_iff.1 h).2) ht rev
    have hI := inert_seg hst hX.fine hX.raw hYf hYs hX.sep rev
    have hsnd : (P hs rev (segX k (oneSpace first)) (encX (restX st k rest ++ Z))).map Prod.snd = entityReplace (oneSpace first) := by rw [P_snd, hX.bytes]
    rw [P_append, renToks_append, ← encX_append]
    generalize P hs rev (segX k (oneSpace first)) (encX (restX st k rest ++ Z)) = D at *
    have hw := word_head hsnd hI.marked
    cases D with
    | nil => exact absurd (entityReplace_eq_nil hsnd.symm) hv
    | cons d D =>
      obtain ⟨m, b⟩ := d
      cases m with
      | true =>
        refine ⟨92, _, rfl, fun c n hm => ?_, fun h => ?_⟩
        · rcases hctx c n hm with rfl | rfl <;> decide
        · exact absurd (hw h) (by simp [renToks, isWordByte]; decide)
      | false =>
        refine ⟨b, _, rfl, fun c n hm => ?_, fun h => ?_⟩
        · rintro rfl
          exact hq (false, b) (by simp) rfl (List.mem_map.2 ⟨_, hm, rfl⟩)
        · exact hw h

theorem rest_last_word (hS : StyleOK st) (k : Bool) {ctx : List Around} : ∀ (rest : List (Inl × Bytes)) {v1 : Bytes}, RestOK st ctx v1 rest → ∀ x, rest.getLast? = some x →
    (oneSpace x.2).getLast?.any isWordByte = true → ((restX st k rest).map Tok.byte).getLast?.any isWordByte = true
  | [], _, _, _, hx, _ => by cases hx
  | [(i, t)], _, h, x, hx, hw => by
    obtain rfl : (i, t) = x := by simpa using hx
    have hX := segX_seg k h.head.chars (seenText_seen t [])
    have e : seenText t [] = oneSpace t := by
      rw [seenText, shownLast, if_neg]
      intro e
      rw [e] at hw
      revert hw; decide
    rw [restX, restX, List.append_nil, List.map_append, hX.bytes, List.getLast?_append, e, entityReplace_last hw]
    cases hg : (oneSpace t).getLast? with
    | none => simp [hg] at hw
    | some b => simpa [hg] using hw
  | (i, t) :: y :: rest, _, h, x, hx, hw => by
    have ih := rest_last_word hS k (y :: rest) h.head.next x (by rw [List.getLast?_cons_cons] at hx; exact hx) hw
    rw [restX, List.map_append, List.map_append, List.getLast?_append, List.getLast?_append]
    cases hg : ((restX st k (y :: rest)).map Tok.byte).getLast? with
    | none => rw [hg] at ih; cases ih
    | some b => rw [hg] at ih; exact ih

/-- The last character of a content. -/
theorem content_last (hS : StyleOK st) {k : Bool} {ctx : List Around} {first : Bytes} {rest : List (Inl × Bytes)} (hin : InnerOK first rest)
    (hrest : RestOK st ctx (oneSpace first) rest) (hw : (oneSpace (lastText first rest)).getLast?.any isWordByte = true) :
    ((segX k (oneSpace first) ++ restX st k rest).map Tok.byte).getLast?.any isWordByte = true := by
  have hX := segX_seg k hin.chars (oneSpace_seen first)
  cases hl : rest.getLast? with
  | none =>
    have : rest = [] := List.getLast?_eq_none_iff.1 hl
    subst this
    have hw : (oneSpace first).getLast?.any isWordByte = true := hw
    rw [restX, List.append_nil, hX.bytes, entityReplace_last hw]
    exact hw
  | some x =>
    rw [lastText, hl] at hw
    have := rest_last_word hS k rest hrest x hl hw
    rw [List.map_append, List.getLast?_append]
    cases hg : ((restX st k rest).map Tok.byte).getLast? with
    | none => rw [hg] at this; cases this
    | some b => rw [hg] at this; exact this

theorem _root_.Verif.Spec.InnerOK.last {first : Bytes} {rest : List (Inl × Bytes)} (h : InnerOK first rest) : rest = [] → NoTrailingWhitespace (oneSpace first) := by
  rintro rfl
  exact h.trailing

theorem delims_eq (st : Style) (name : Bytes) : ∃ n, (n = 1 ∨ n = 2) ∧ st.around name = .delim (st.delim name) n ∧
    delims st name = List.replicate n (st.delim name) ∧ (n = 1 ↔ name ∉ strongNames) := by
  rw [Style.around, delims]
  split
  · next h => exact ⟨2, .inr rfl, rfl, rfl, by simp [h]⟩
  · next h => exact ⟨1, .inl rfl, rfl, rfl, by simp [h]⟩

mutual
/-- An element is read back. -/
theorem read_inl (hst : IsStock dig hs) (hS : StyleOK st) {k : Bool} {ctx : List Around} (hctx : CtxOK ctx) (hk : .bracket ∈ ctx → k = true) {v1 v2 : Bytes} :
    (i : Inl) → i.OK st ctx v1 v2 → ∀ {Y : List Tok}, Fine Y → ∀ {prev : Option UInt8} {rev : Bytes} {r : List Span} {E : Bytes → Bytes},
    (prev = v1.getLast? ∨ v1 = [] ∧ edge prev = true) →
    (i.isCode = true → ∀ rev, (renToks (P hs rev Y [])).head? ≠ some 96) →
    (∀ name first inner, i = .emph name first inner → ∀ rev, (renToks (P hs rev Y [])).head? ≠ some (st.delim name)) →
    (edge v2.head? = true → ∀ rev, edge (renToks (P hs rev Y [])).head? = true) →
    (∀ prev rev f, edge prev = true → (renToks (P hs rev Y [])).length < f → readSpans f ctx prev (renToks (P hs rev Y [])) = some (r, E rev)) →
    ∀ f, (renToks (P hs rev (inlX st k i ++ Y) [])).length < f →
      readSpans f ctx prev (renToks (P hs rev (inlX st k i ++ Y) [])) = some (i.span st.resolve :: r, E ((encX (inlX st k i)).reverse ++ rev))
  | .emph name first rest => by
    intro h Y hY prev rev r E hprev _ hd he hread
    rw [Inl.OK] at h
    obtain ⟨hem, hin, ht, hrest⟩ := h
    obtain ⟨n, hn, ha, edl, hns⟩ := delims_eq st name
    have hc := hS.delim name
    have hd := hd name first rest rfl
    have hc32 : edge (some (st.delim name)) = true := by rcases hc with h | h <;> (rw [h]; decide)
    have hctx' : CtxOK (st.around name :: ctx) := by
      intro c m hm
      rcases List.mem_cons.1 hm with hm | hm
      · rw [ha] at hm; cases hm; exact hc
      · exact hctx c m hm
    have hk' : .bracket ∈ st.around name :: ctx → k = true := by
      intro hm
      rcases List.mem_cons.1 hm with hm | hm
      · rw [ha] at hm; cases hm
      · exact hk hm
    have hZf : Fine (rawX (delims st name) ++ Y) := (delims_fine hS name).append hY
    have hE : EndOK (st.around name :: ctx) (rawX (delims st name) ++ Y) := by
      obtain ⟨j, e⟩ := delims_cons st name
      exact .inr ⟨st.around name, ctx, rawX (List.replicate j (st.delim name)) ++ Y, rfl, by rw [e, ha]; rfl⟩
    have hZ : ∀ rev, renToks (P hs rev (rawX (delims st name) ++ Y) []) = List.replicate n (st.delim name) ++ renToks (P hs ((delims st name).reverse ++ rev) Y []) := by
      intro rev
      rw [P_raw, renToks_append, ren_map_raw, ← edl]
    have hend : ∀ prev rev f, (renToks (P hs rev (rawX (delims st name) ++ Y) [])).length < f →
        readSpans f (st.around name :: ctx) prev (renToks (P hs rev (rawX (delims st name) ++ Y) [])) =
          some ([], renToks (P hs rev (rawX (delims st name) ++ Y) [])) := by
      intro prev rev f hf
      rw [hZ] at hf ⊢
      rw [ha]
      exact read_close hc (by omega) (hd _) prev hf
    have hr := rest_facts hS k rest hrest
    have hX := segX_seg k hin.chars (oneSpace_seen first)
    have hinner := read_rest hst hS hctx' hk' rest hin.chars (oneSpace_seen first) ht hrest hZf hE hend (prev := some (st.delim name))
      (.inr hc32) ((delims st name).reverse ++ rev)
    have eC : ∀ rev, renToks (P hs rev (segX k (oneSpace first) ++ (restX st k rest ++ (rawX (delims st name) ++ Y))) []) =
        renToks (P hs rev (segX k (oneSpace first) ++ restX st k rest) (encX (rawX (delims st name) ++ Y))) ++
          (List.replicate n (st.delim name) ++ renToks (P hs ((delims st name).reverse ++ ((encX (segX k (oneSpace first) ++ restX st k rest)).reverse ++ rev)) Y [])) := by
      intro rev
      rw [← List.append_assoc, P_append, List.append_nil, renToks_append, hZ]
    have e : inlX st k (.emph name first rest) ++ Y =
        rawX (delims st name) ++ (segX k (oneSpace first) ++ (restX st k rest ++ (rawX (delims st name) ++ Y))) := by
      rw [inlX]; simp
    have e1 : renToks (P hs rev (inlX st k (.emph name first rest) ++ Y) []) = List.replicate n (st.delim name) ++
        renToks (P hs ((delims st name).reverse ++ rev) (segX k (oneSpace first) ++ (restX st k rest ++ (rawX (delims st name) ++ Y))) []) := by
      rw [e, P_raw, renToks_append, ren_map_raw, ← edl]
    have e2 : (encX (inlX st k (.emph name first rest))).reverse ++ rev =
        (delims st name).reverse ++ ((encX (segX k (oneSpace first) ++ restX st k rest)).reverse ++ ((delims st name).reverse ++ rev)) := by
      rw [inlX]; simp [encX_append, encX_raw]
    have e3 : (Inl.emph name first rest).span st.resolve = if n = 1 then Span.em (textSpans (oneSpace first) ++ spansRest st.resolve rest)
        else .strong (textSpans (oneSpace first) ++ spansRest st.resolve rest) := by
      rw [Inl.span]
      by_cases hm : name ∈ strongNames
      · rw [if_pos hm, if_neg (fun h => hns.1 h hm)]
      · rw [if_neg hm, if_pos (hns.2 hm)]
    have hread' := hread (some (st.delim name)) ((delims st name).reverse ++ ((encX (segX k (oneSpace first) ++ restX st k rest)).reverse ++ ((delims st name).reverse ++ rev)))
    have hdr := hd ((delims st name).reverse ++ ((encX (segX k (oneSpace first) ++ restX st k rest)).reverse ++ ((delims st name).reverse ++ rev)))
    obtain ⟨b, s, eD, hb1, hb2⟩ := content_head hst hS hctx' hk' hin ht hrest hZf hE ((delims st name).reverse ++ rev)
    have hsnd : (P hs ((delims st name).reverse ++ rev) (segX k (oneSpace first) ++ restX st k rest) (encX (rawX (delims st name) ++ Y))).map Prod.snd =
        (segX k (oneSpace first) ++ restX st k rest).map Tok.byte := P_snd _ _ _
    have hlast := content_last hS (k := k) hin hrest
    have htrail := content_trailing (k := k) hin.chars (oneSpace_seen first) hr hin.last
    have hfirst : ∀ w ∈ whitespace, ¬ w <+: (segX k (oneSpace first) ++ restX st k rest).map Tok.byte := by
      intro w hw hp
      rw [List.map_append, hX.bytes] at hp
      refine noLeading_entity hin.leading w hw (cut_prefix ?_ hp)
      intro c hc
      exact (start_ascii c (hr.head c hc)).1 w hw
    rw [e1, e2, e3, eC]
    rw [eC, hZ] at hinner
    rw [← hsnd] at hlast htrail hfirst
    have hedge := he
    have he := fun h => he h ((delims st name).reverse ++ ((encX (segX k (oneSpace first) ++ restX st k rest)).reverse ++ ((delims st name).reverse ++ rev)))
    generalize (delims st name).reverse ++ ((encX (segX k (oneSpace first) ++ restX st k rest)).reverse ++ ((delims st name).reverse ++ rev)) = rev3 at *
    generalize renToks (P hs rev3 Y []) = tl at *
    generalize P hs ((delims st name).reverse ++ rev) (segX k (oneSpace first) ++ restX st k rest) (encX (rawX (delims st name) ++ Y)) = D at *
    refine read_emph hc hn ?_ ?_ ?_ ?_ ?_ hdr ?_ ?_ (by rw [← ha]; exact hinner) (hread' · hc32)
    · intro m hm
      have h32 := (hem.same m hm).1
      refine ⟨?_, ?_⟩
      · rcases hprev with h | ⟨h, -⟩
        · rw [h]; exact h32
        · rw [h] at h32; cases h32
      · rintro rfl
        exact hem.once (by rw [ha]; exact hm)
    · rw [eD]; simp
    · rw [eD]
      intro h
      exact hb1 (st.delim name) n (by rw [ha]; simp) (by simpa using h)
    · intro w hw hp
      have hp := cut_prefix (fun d hd => by
        have : d = st.delim name := by
          obtain ⟨k, rfl⟩ : ∃ k, n = k + 1 := ⟨n - 1, by omega⟩
          simpa [List.replicate_succ] using hd.symm
        rw [this]
        exact (ws_word w hw).2 _ (by rcases hc with h | h <;> (rw [h]; decide))) hp
      rw [renToks_by] at hp
      exact hfirst w hw (encBy_prefix (ws_bs w hw) _ hp)
    · rw [renToks_by]
      exact encBy_noTrailing ws_bs htrail
    · rcases hem.left with h | ⟨h, h2⟩
      · left
        rcases hprev with h' | ⟨-, h'⟩
        · rw [h']; exact h
        · exact h'
      · right
        rw [eD]
        exact ⟨h, by simpa using hb2 h2⟩
    · rcases hem.right with h | ⟨h, h2⟩
      · exact .inl (he h)
      · right
        rw [renToks_last]
        exact ⟨h, hlast h2⟩
  | .code c => by
    intro h Y hY prev rev r E _ h96 _ _ hread
    rw [Inl.OK] at h
    rw [inlX, encX_raw]
    exact read_code h (h96 rfl) (fun rev f => hread _ rev f (by decide))
  | .link href title first rest => by
    intro h Y hY prev rev r E _ _ _ _ hread
    rw [Inl.OK] at h
    obtain ⟨ha, htt, hb, hin, ht, hrest⟩ := h
    have hctx' : CtxOK (.bracket :: ctx) := by
      intro c m hm
      rcases List.mem_cons.1 hm with hm | hm
      · cases hm
      · exact hctx c m hm
    have hZf : Fine (rawX (linkEnd (st.resolve href) title) ++ Y) := (linkEnd_fine ha.toAttrOK htt).append hY
    have hE : EndOK (.bracket :: ctx) (rawX (linkEnd (st.resolve href) title) ++ Y) := .inr ⟨.bracket, ctx, _, rfl, rfl⟩
    have hZ : ∀ rev, renToks (P hs rev (rawX (linkEnd (st.resolve href) title) ++ Y) []) =
        linkEnd (st.resolve href) title ++ renToks (P hs ((linkEnd (st.resolve href) title).reverse ++ rev) Y []) := by
      intro rev
      rw [P_raw, renToks_append, ren_map_raw]
    have hend : ∀ prev rev f, (renToks (P hs rev (rawX (linkEnd (st.resolve href) title) ++ Y) [])).length < f →
        readSpans f (.bracket :: ctx) prev (renToks (P hs rev (rawX (linkEnd (st.resolve href) title) ++ Y) [])) =
          some ([], renToks (P hs rev (rawX (linkEnd (st.resolve href) title) ++ Y) [])) := by
      intro prev rev f hf
      rw [hZ] at hf ⊢
      exact read_closing _ prev hf
    have hinner := read_rest hst hS hctx' (fun _ => rfl) rest hin.chars (oneSpace_seen first) ht hrest hZf hE hend (prev := some 91) (.inr (by decide)) (91 :: rev)
    have eC : ∀ rev, renToks (P hs rev (segX true (oneSpace first) ++ (restX st true rest ++ (rawX (linkEnd (st.resolve href) title) ++ Y))) []) =
        renToks (P hs rev (segX true (oneSpace first) ++ restX st true rest) (encX (rawX (linkEnd (st.resolve href) title) ++ Y))) ++
          (linkEnd (st.resolve href) title ++ renToks (P hs ((linkEnd (st.resolve href) title).reverse ++
            ((encX (segX true (oneSpace first) ++ restX st true rest)).reverse ++ rev)) Y [])) := by
      intro rev
      rw [← List.append_assoc, P_append, List.append_nil, renToks_append, hZ]
    have e : inlX st k (.link href title first rest) ++ Y =
        .raw 91 :: (segX true (oneSpace first) ++ (restX st true rest ++ (rawX (linkEnd (st.resolve href) title) ++ Y))) := by
      rw [inlX]; simp
    have e2 : (encX (inlX st k (.link href title first rest))).reverse ++ rev =
        (linkEnd (st.resolve href) title).reverse ++ ((encX (segX true (oneSpace first) ++ restX st true rest)).reverse ++ (91 :: rev)) := by
      have : ∀ X, encX (.raw 91 :: X) = 91 :: encX X := fun _ => rfl
      rw [inlX, this]; simp [encX_append, encX_raw]
    rw [e, e2, Inl.span, P, renToks_cons_f, eC]
    rw [eC, hZ] at hinner
    exact read_link hctx hb ha.toAttrOK ha.plain htt hinner (hread _ _ · (by decide))
  | .image src title alt => by
    intro h Y hY prev rev r E _ _ _ _ hread
    rw [Inl.OK] at h
    obtain ⟨ha, htt, hal, h42, h95⟩ := h
    rw [inlX, encX_raw]
    exact read_image hal h42 h95 ha.toAttrOK ha.plain htt hctx (fun rev f => hread _ rev f (by decide))
/-- A content is read back. -/
theorem read_rest (hst : IsStock dig hs) (hS : StyleOK st) {k : Bool} {ctx : List Around} (hctx : CtxOK ctx) (hk : .bracket ∈ ctx → k = true) {v0 : Bytes} :
    (rest : List (Inl × Bytes)) → CharsOK v0 → Seen v0 → TextIn ctx v0 → RestOK st ctx v0 rest → ∀ {Z : List Tok}, Fine Z → EndOK ctx Z →
    (∀ prev rev f, (renToks (P hs rev Z [])).length < f → readSpans f ctx prev (renToks (P hs rev Z [])) = some ([], renToks (P hs rev Z []))) →
    ∀ {prev : Option UInt8}, (v0 ≠ [] ∨ edge prev = true) → ∀ rev f, (renToks (P hs rev (segX k v0 ++ (restX st k rest ++ Z)) [])).length < f →
      readSpans f ctx prev (renToks (P hs rev (segX k v0 ++ (restX st k rest ++ Z)) [])) =
        some (textSpans v0 ++ spansRest st.resolve rest, renToks (P hs ((encX (segX k v0 ++ restX st k rest)).reverse ++ rev) Z []))
  | [] => by
    intro hc hn ht hok Z hZ hE hend prev hp rev
    rw [restX, List.nil_append, List.append_nil, ← foldr_spans v0 (spansRest_head st.resolve [])]
    have := read_seg hst ctx (segX_seg k hc hn) hZ (hE.starter hctx) rev prev
      (quiet_seg hst hctx hk hc hn hZ (hE.starter hctx) hE.ne ht rev) ([], renToks (P hs ((encX (segX k v0)).reverse ++ rev) Z [])) (fun f hf => hend _ _ f hf)
    rw [foldr_push] at this
    exact this
  | (i, t) :: rest => by
    intro hc hn ht hok Z hZ hE hend prev hp rev
    have hh := hok.head
    have hr := rest_facts hS k _ hok
    have hr2 := rest_facts hS k _ hh.next
    have hYf := hr.fine.append hZ
    have hYs := hr.starter (hE.starter hctx)
    have e : (encX (segX k v0 ++ restX st k ((i, t) :: rest))).reverse ++ rev =
        (encX (segX k (seenText t rest) ++ restX st k rest)).reverse ++ ((encX (inlX st k i)).reverse ++ ((encX (segX k v0)).reverse ++ rev)) := by
      rw [restX]; simp [encX_append]
    rw [← foldr_spans v0 (spansRest_head st.resolve _), e]
    have := read_seg hst ctx (segX_seg k hc hn) hYf hYs rev prev
      (quiet_seg hst hctx hk hc hn hYf hYs (fun hne h => hE.ne hne (List.append_eq_nil_iff.1 h).2) ht rev)
      (spansRest st.resolve ((i, t) :: rest), renToks (P hs ((encX (segX k (seenText t rest) ++ restX st k rest)).reverse ++
        ((encX (inlX st k i)).reverse ++ ((encX (segX k v0)).reverse ++ rev))) Z [])) ?_
    · rw [foldr_push] at this
      exact this
    · have e2 : restX st k ((i, t) :: rest) ++ Z = inlX st k i ++ (segX k (seenText t rest) ++ (restX st k rest ++ Z)) := by
        rw [restX]; simp
      rw [e2, spans_cons]
      refine read_inl hst hS hctx hk i hh.elem (Y := segX k (seenText t rest) ++ (restX st k rest ++ Z))
        (E := fun rev => renToks (P hs ((encX (segX k (seenText t rest) ++ restX st k rest)).reverse ++ rev) Z []))
        ((segX_seg k hh.chars (seenText_seen t rest)).fine.append (hr2.fine.append hZ)) ?_ ?_ ?_ ?_ ?_
      · by_cases hv : v0 = []
        · right
          refine ⟨hv, ?_⟩
          rw [hv]
          exact hp.resolve_left (fun h => h hv)
        · left
          rw [List.getLast?_eq_some_getLast hv]; rfl
      · intro hi rev
        exact (after_elem hst hS hctx hh hZ hE rev).1 hi
      · intro name first inner hi rev
        exact (after_elem hst hS hctx hh hZ hE rev).2.1 name first inner hi
      · intro he rev
        exact (after_elem hst hS hctx hh hZ hE rev).2.2 he
      · intro prev rev f he hf
        exact read_rest hst hS hctx hk rest hh.chars (seenText_seen t rest) hh.text hh.next hZ hE hend (.inr he) rev f hf
end

/-- Characters with a backslash in front of them, or not. -/
def escT (X : List Tok) : Toks := X.map fun x => (match x with | .esc _ => true | _ => false, x.byte)

theorem flat_snd (X : List Tok) : (flatX X).map Prod.snd = encBy 92 (escT X) := by
  induction X with
  | nil => rfl
  | cons x X ih =>
    have e : flatX (x :: X) = x.flat ++ flatX X := rfl
    rw [e, List.map_append, ih]
    cases x with
    | raw c => exact (encBy_cons 92 false c (escT X)).symm
    | mark c => exact (encBy_cons 92 false c (escT X)).symm
    | esc c => exact (encBy_cons 92 true c (escT X)).symm

theorem escT_snd (X : List Tok) : (escT X).map Prod.snd = X.map Tok.byte := by
  rw [escT, List.map_map]; rfl

theorem mem_renToks {D : Toks} {x : UInt8} (h : x ∈ D.map Prod.snd) : x ∈ renToks D := by
  rw [List.mem_map] at h
  obtain ⟨d, hd, rfl⟩ := h
  rw [renToks, List.mem_flatMap]
  exact ⟨d, hd, by split <;> simp⟩

theorem renToks_head {D : Toks} : (renToks D).head? = (D.map Prod.snd).head? ∨ (renToks D).head? = some 92 := by
  cases D with
  | nil => exact .inl rfl
  | cons d D =>
    obtain ⟨m, c⟩ := d
    cases m with
    | true => exact .inr rfl
    | false => exact .inl rfl

theorem thematic_none {l : Bytes} {x : UInt8} (h : x ∈ l) (hx : x ∉ [32, 9, 45, 95, 42]) : isThematicBreak l = false := by
  simp only [List.mem_cons, List.not_mem_nil, or_false, not_or] at hx
  rw [← Bool.not_eq_true]
  intro ht
  have hm : x ∈ l.filter fun b => b != 32 && b != 9 := by
    rw [List.mem_filter]; exact ⟨h, by simp [hx]⟩
  rw [isThematicBreak] at ht
  generalize (l.filter fun b => b != 32 && b != 9) = s at *
  cases s with
  | nil => cases hm
  | cons c s =>
    simp only [Bool.and_eq_true, List.all_eq_true, Bool.or_eq_true, beq_iff_eq] at ht
    have := ht.1.2 x hm
    subst this
    grind

/-! ## A line that begins with an element -/

theorem item_head {c : UInt8} {l : Bytes} (h : c ∈ [33, 42, 91, 95, 96]) (hb : c = 42 → l ≠ [] ∧ l.head? ≠ some 32 ∧ l.head? ≠ some 9 ∧ l.head? ≠ some 13) :
    isAtxHeading (c :: l) = false ∧ isBulletItem (c :: l) = false ∧ isOrderedItem (c :: l) = false := by
  have h32 : c ≠ 32 ∧ c ≠ 35 ∧ c ≠ 45 ∧ c ≠ 43 ∧ isDigit c = false := by
    revert h
    exact forall_u8 (P := fun c => c ∈ [33, 42, 91, 95, 96] → c ≠ 32 ∧ c ≠ 35 ∧ c ≠ 45 ∧ c ≠ 43 ∧ isDigit c = false) (by decide +kernel) c
  have e : dropSpaces (c :: l) = c :: l := dropSpaces_of_head (by simpa using h32.1)
  refine ⟨?_, ?_, ?_⟩
  · rw [isAtxHeading, e]; simp [h32]
  · rw [isBulletItem, e]
    by_cases hc : c = 42
    · obtain ⟨h1, h2, h3, h4⟩ := hb hc
      cases l with
      | nil => exact absurd rfl h1
      | cons b l =>
        simp at h2 h3 h4
        simp [endOrBlank, h2, h3, h4]
    · simp [h32, hc]
  · rw [isOrderedItem, e]; simp [h32]

theorem mem_dropWhile {p : UInt8 → Bool} {x : UInt8} (hx : p x = false) : ∀ {s : Bytes}, x ∈ s → x ∈ s.dropWhile p
  | [], h => h
  | b :: s, h => by
    rw [List.dropWhile_cons]
    split
    · rcases List.mem_cons.1 h with rfl | h
      · rw [hx] at *; contradiction
      · exact mem_dropWhile hx h
    · exact h

theorem mem_trimBlank {s : Bytes} {x : UInt8} (hx : x ≠ 32 ∧ x ≠ 9) (h : x ∈ s) : x ∈ trimBlank s := by
  have hp : (x == 32 || x == 9) = false := by simp [hx]
  rw [trimBlank, List.mem_reverse]
  exact mem_dropWhile (p := fun b => b == 32 || b == 9) hp (List.mem_reverse.2 (mem_dropWhile (p := fun b => b == 32 || b == 9) hp h))

theorem code_no_fence {c rest : Bytes} (h : SpanCodeOK c) (ls : List Bytes) : readFenced ((inlineCode c ++ rest) :: ls) = none := by
  obtain ⟨k, e⟩ := h.eq
  obtain ⟨m, M, e2, hm⟩ : ∃ m M, (if c.head? = some 96 then [32] else []) ++ c ++ (if c.getLast? = some 96 then [32] else []) = m :: M ∧ m ≠ 96 := by
    split
    · exact ⟨32, _, rfl, by decide⟩
    · have hne := h.nonempty
      cases c with
      | nil => exact absurd rfl hne
      | cons b c => exact ⟨b, _, rfl, by next hh => simpa using hh⟩
  rw [e2] at e
  have e3 : inlineCode c ++ rest = 96 :: (List.replicate k 96 ++ (m :: (M ++ (List.replicate (k + 1) 96 ++ rest)))) := by
    rw [e, List.replicate_succ]; simp
  have e4 : (96 :: (List.replicate k 96 ++ (m :: (M ++ (List.replicate (k + 1) 96 ++ rest))))).dropWhile (· == 96) =
      m :: (M ++ (List.replicate (k + 1) 96 ++ rest)) := by
    have := (takeWhile_run (c := 96) (k + 1) (s := m :: (M ++ (List.replicate (k + 1) 96 ++ rest))) (by simpa using hm)).2
    rw [List.replicate_succ (n := k)] at this
    exact this
  have hm2 : 96 ∈ trimBlank (m :: (M ++ (List.replicate (k + 1) 96 ++ rest))) := mem_trimBlank (by decide) (by simp)
  rw [e3, readFenced]
  simp only [e4]
  rw [if_neg]
  intro hh
  exact hh.2.2 ⟨trivial, hm2⟩

/-! ## The line -/

/-- The line of a paragraph with elements in it. -/
def richX (st : Style) (first : Bytes) (rest : List (Inl × Bytes)) : List Tok := textX (shownFirst first) ++ restX st false rest

theorem entityReplace_visible {v : Bytes} {b : UInt8} (h : b ∈ v) (hb : b ∉ b!" *-_") (h9 : 9 ∉ v) : ∃ x ∈ entityReplace v, x ∉ [32, 9, 45, 95, 42] := by
  have hb9 : b ≠ 9 := fun e => h9 (e ▸ h)
  by_cases h38 : 38 ∈ entityReplace v
  · exact ⟨38, h38, by decide⟩
  · refine ⟨b, by rw [entityReplace_id h38]; exact h, ?_⟩
    simp at hb ⊢
    grind

theorem visible_bytes {v : Bytes} (hc : Seen v) (h : visibleText v) : ∃ x ∈ entityReplace v, x ∉ [32, 9, 45, 95, 42] := by
  obtain ⟨b, hb, hb2⟩ := h
  exact entityReplace_visible hb hb2 hc.no_tab

theorem visible_seen {t : Bytes} (h : visibleText (oneSpace t)) (rest : List (Inl × Bytes)) : visibleText (seenText t rest) := by
  cases rest with
  | cons x rest => exact h
  | nil =>
    obtain ⟨b, hb, hb2⟩ := h
    refine ⟨b, ?_, hb2⟩
    rw [seenText, shownLast]
    split
    · next e =>
      obtain ⟨ys, hy⟩ := List.getLast?_eq_some_iff.1 e
      rw [hy, List.mem_append] at hb
      rw [hy, List.dropLast_concat]
      rcases hb with hb | hb
      · exact hb
      · simp at hb
        rw [hb] at hb2
        exact absurd hb2 (by decide)
    · exact hb

mutual
theorem inl_visible {k : Bool} {ctx : List Around} {v1 v2 : Bytes} : (i : Inl) → i.OK st ctx v1 v2 → i.visible → ∃ x ∈ (inlX st k i).map Tok.byte, x ∉ [32, 9, 45, 95, 42]
  | .emph name first rest => by
    intro h hv
    rw [Inl.OK] at h
    rw [Inl.visible] at hv
    obtain ⟨hem, hin, ht, hrest⟩ := h
    rcases hv with hv | hv
    · obtain ⟨x, hx, hx2⟩ := visible_bytes (oneSpace_seen first) hv
      refine ⟨x, ?_, hx2⟩
      rw [inlX, List.map_append, List.map_append, (segX_seg k hin.chars (oneSpace_seen first)).bytes]
      simp [hx]
    · obtain ⟨x, hx, hx2⟩ := rest_visible (k := k) rest hrest hv
      refine ⟨x, ?_, hx2⟩
      rw [inlX, List.map_append, List.map_append, List.map_append, List.mem_append, List.mem_append, List.mem_append]
      exact .inr (.inr (.inl hx))
  | .code c => by
    intro h _
    rw [Inl.OK] at h
    refine ⟨96, ?_, by decide⟩
    obtain ⟨s, e⟩ := SpanCodeOK.head h
    rw [inlX, rawX_byte, e]; simp
  | .link href title first rest => by
    intro _ _
    exact ⟨91, by rw [inlX]; simp [Tok.byte], by decide⟩
  | .image src title alt => by
    intro _ _
    exact ⟨33, by rw [inlX, rawX_byte]; simp, by decide⟩
theorem rest_visible {k : Bool} {ctx : List Around} {v1 : Bytes} : (rest : List (Inl × Bytes)) → RestOK st ctx v1 rest → visibleRest rest →
    ∃ x ∈ (restX st k rest).map Tok.byte, x ∉ [32, 9, 45, 95, 42]
  | [] => by intro _ h; rw [visibleRest] at h; exact h.elim
  | (i, t) :: rest => by
    intro h hv
    rw [visibleRest] at hv
    have hh := h.head
    rw [restX, List.map_append, List.map_append]
    rcases hv with hv | hv | hv
    · obtain ⟨x, hx, hx2⟩ := inl_visible (k := k) i hh.elem hv
      exact ⟨x, List.mem_append_left _ hx, hx2⟩
    · obtain ⟨x, hx, hx2⟩ := visible_bytes (seenText_seen t rest) (visible_seen hv rest)
      refine ⟨x, ?_, hx2⟩
      rw [(segX_seg k hh.chars (seenText_seen t rest)).bytes]
      simp [hx]
    · obtain ⟨x, hx, hx2⟩ := rest_visible (k := k) rest hh.next hv
      exact ⟨x, List.mem_append_right _ (List.mem_append_right _ hx), hx2⟩
end

theorem rich_visible {first : Bytes} {rest : List (Inl × Bytes)} (h : RichOK st first rest) : ∃ x ∈ (richX st first rest).map Tok.byte, x ∉ [32, 9, 45, 95, 42] := by
  rw [richX, List.map_append]
  rcases h.visible with hv | hv
  · obtain ⟨x, hx, hx2⟩ := visible_bytes (shownFirst_seen first) hv
    refine ⟨x, List.mem_append_left _ ?_, hx2⟩
    rw [(textX_seg h.chars (shownFirst_seen first)).bytes]
    exact hx
  · obtain ⟨x, hx, hx2⟩ := rest_visible (k := false) rest h.elements hv
    exact ⟨x, List.mem_append_right _ hx, hx2⟩

theorem rest_start (hS : StyleOK st) {k : Bool} {ctx : List Around} {v1 : Bytes} {rest : List (Inl × Bytes)} (h : RestOK st ctx v1 rest) (hne : rest ≠ []) :
    ∃ c X', restX st k rest = .raw c :: X' ∧ c ∈ [33, 42, 91, 95, 96] := by
  rcases (rest_facts hS k rest h).start with ⟨e, -⟩ | ⟨-, c, X', e⟩
  · exact absurd e hne
  · exact ⟨c, X', e⟩

theorem content_leading (hS : StyleOK st) {k : Bool} {ctx : List Around} {first : Bytes} {rest : List (Inl × Bytes)} (hin : InnerOK first rest)
    (hrest : RestOK st ctx (oneSpace first) rest) :
    (segX k (oneSpace first) ++ restX st k rest).map Tok.byte ≠ [] ∧ NoLeadingWhitespace ((segX k (oneSpace first) ++ restX st k rest).map Tok.byte) := by
  have hr := rest_facts hS k rest hrest
  have hX := segX_seg k hin.chars (oneSpace_seen first)
  rw [List.map_append, hX.bytes]
  constructor
  · intro h
    obtain ⟨h1, h2⟩ := List.append_eq_nil_iff.1 h
    rcases hin.nonempty with hn | hn
    · exact oneSpace_ne hn (entityReplace_eq_nil h1)
    · obtain ⟨c, X', e, -⟩ := rest_start hS (k := k) hrest hn
      rw [e] at h2
      cases h2
  · intro w hw hp
    refine noLeading_entity hin.leading w hw (cut_prefix ?_ hp)
    intro c hc
    exact (start_ascii c (hr.head c hc)).1 w hw

theorem seg_no_fence {v : Bytes} (h : v.head? ≠ some 96 ∧ v.head? ≠ some 126) : ∀ c, (entityReplace v).head? = some c → c ≠ 96 ∧ c ≠ 126 := by
  intro c hc
  rcases entityReplace_head v with e | ⟨-, e⟩
  · rw [e] at hc
    rw [hc] at h
    simpa using h
  · rw [e] at hc
    cases hc
    decide

theorem rich_leading (hS : StyleOK st) {first : Bytes} {rest : List (Inl × Bytes)} (h : RichOK st first rest) :
    NoLeadingWhitespace ((richX st first rest).map Tok.byte) := by
  have hok := h.elements
  have hX := textX_seg h.chars (shownFirst_seen first)
  rw [richX, List.map_append, hX.bytes]
  intro w hw hp
  refine noLeading_entity h.leading w hw (cut_prefix ?_ hp)
  intro c hc
  exact (start_ascii c ((rest_facts hS false rest hok).head c hc)).1 w hw

theorem rich_trailing (hS : StyleOK st) {first : Bytes} {rest : List (Inl × Bytes)} (h : RichOK st first rest) :
    NoTrailingWhitespace ((richX st first rest).map Tok.byte) :=
  content_trailing (k := false) h.chars (shownFirst_seen first) (rest_facts hS false rest h.elements) (fun e => absurd e h.nonempty)

theorem rich_code (hS : StyleOK st) {first : Bytes} {rest : List (Inl × Bytes)} (h : RichOK st first rest) :
    ¬ codeNewline <:+: (richX st first rest).map Tok.byte := by
  have hok := h.elements
  rw [richX, List.map_append, (textX_seg h.chars (shownFirst_seen first)).bytes]
  exact noCode_append (noCode_entity h.chars.no_mark) ((rest_facts hS false rest hok).code) fun c hc => (start_ascii c ((rest_facts hS false rest hok).head c hc)).2

theorem rich_fine (hS : StyleOK st) {first : Bytes} {rest : List (Inl × Bytes)} (h : RichOK st first rest) : Fine (richX st first rest) :=
  (textX_seg h.chars (shownFirst_seen first)).fine.append (rest_facts hS false rest h.elements).fine

/-- What the loop makes of the line. -/
theorem rich_loop (hst : IsStock dig hs) (hS : StyleOK st) {first : Bytes} {rest : List (Inl × Bytes)} (h : RichOK st first rest) :
    renToks (W hs [] 0 (flatX (richX st first rest))) = renToks (P hs [] (richX st first rest) []) := by
  have hok := h.elements
  have hX := textX_seg h.chars (shownFirst_seen first)
  have hf := rich_fine hS h
  have hl := rich_leading hS h
  have hsnd := flat_snd (richX st first rest)
  rw [W_line hst hf.wf, ren_embed]
  · intro hn
    rw [hsnd] at hn
    rcases encBy_mem hn with hn | hn
    · exact absurd hn (by decide)
    · rw [escT_snd, List.mem_map] at hn
      obtain ⟨x, hx, e⟩ := hn
      have := hf.bytes x hx
      rw [e] at this
      exact this (by decide)
  · have := encBy_noLeading ws_bs (ts := escT (richX st first rest)) (by rw [escT_snd]; exact hl)
    rw [hsnd]
    exact (noLeading_head this).1
  · intro c hc
    by_cases hv : shownFirst first = []
    · rw [richX, hv, textX_nil, List.nil_append] at hc
      obtain ⟨c, X', e, -⟩ := rest_start hS (k := false) hok h.nonempty
      rw [e] at hc
      cases hc
    · refine seg_no_fence h.no_fence c ?_
      rw [richX, flatX_append, textX, flat_embed] at hc
      have h0 : 0 ∉ entityReplace (shownFirst first) := not_mem_entity h.chars.no_nul (by decide)
      rw [← textToks_snd _ h0]
      cases ht : textToks (entityReplace (shownFirst first)) with
      | nil =>
        have := textToks_snd _ h0
        rw [ht] at this
        exact absurd (entityReplace_eq_nil this.symm) hv
      | cons t T =>
        rw [ht] at hc
        cases hc
        rfl
  · obtain ⟨x, hx, hx2⟩ := rich_visible h
    refine ⟨x, ?_, hx2⟩
    rw [hsnd]
    have := mem_renToks (D := escT (richX st first rest)) (by rw [escT_snd]; exact hx)
    rwa [renToks_by] at this

theorem flatX_marked {X : List Tok} (h : Fine X) : ∀ t ∈ flatX X, t.1 = true → t.2 ∈ commonmarkChars := by
  intro t ht h1
  rw [flatX, List.mem_flatMap] at ht
  obtain ⟨x, hx, ht⟩ := ht
  cases x with
  | raw c => simp [Tok.flat] at ht; rw [ht] at h1; cases h1
  | mark c => simp [Tok.flat] at ht; rw [ht]; exact h.marked c hx
  | esc c => simp [Tok.flat] at ht; rcases ht with ht | ht <;> (rw [ht] at h1; cases h1)

/-- A line that begins with text is no heading, list item or fence. -/
theorem rich_text_line (hst : IsStock dig hs) (hdig : Props.DigitsOK dig) (hS : StyleOK st) {first : Bytes} {rest : List (Inl × Bytes)}
    (h : RichOK st first rest) (hv : shownFirst first ≠ []) {l : Bytes} (hl : renToks (W hs [] 0 (flatX (richX st first rest))) = l)
    (h32 : l.head? ≠ some 32) : isAtxHeading l = false ∧ isBulletItem l = false ∧ isOrderedItem l = false ∧ isFence l = false := by
  have hok := h.elements
  have hf := rich_fine hS h
  have ed := dropSpaces_of_head h32
  have eX : flatX (richX st first rest) = textToks (entityReplace (shownFirst first)) ++ flatX (restX st false rest) := by
    rw [richX, flatX_append, textX, flat_embed]
  have h0 : 0 ∉ entityReplace (shownFirst first) := not_mem_entity h.chars.no_nul (by decide)
  have hA : ∀ c x, dropSpaces l = c :: x → c ∈ commonmarkChars → c ≠ BS → AtMarked dig hs c x := by
    intro c x hx hc hb
    rw [ed] at hx
    have h5 : renToks (W hs [] 0 (flatX (richX st first rest))) = c :: (x ++ []) := by rw [hl, hx, List.append_nil]
    obtain ⟨m, ts', e⟩ := ren_head hb h5
    have hm : m = true := by
      rw [eX] at e
      cases ht : textToks (entityReplace (shownFirst first)) with
      | nil =>
        have := textToks_snd _ h0
        rw [ht] at this
        exact absurd (entityReplace_eq_nil this.symm) hv
      | cons t T =>
        rw [ht] at e
        have e1 : t = (m, c) := (List.cons.inj e).1
        have := (textToks_marked (entityReplace (shownFirst first)) t (by rw [ht]; simp)).2 (by rw [e1]; exact hc)
        rw [e1] at this
        exact this
    subst hm
    rw [e] at h5
    exact atMarked_of hst.good (by rw [← e]; exact hf.wf) rfl h5 (.inl rfl) hb
  refine ⟨atx_core hA, bullet_core hA, ?_, fence_core hA⟩
  refine ordered_core hst.good hdig (rest := []) hf.wf (rev := []) rfl (by rw [hl, ed, List.append_nil]) (.inl rfl) ?_ ?_
  · intro t ht hd
    cases h1 : t.1 with
    | false => rfl
    | true =>
      have := flatX_marked hf t ht h1
      have hno : ∀ c ∈ commonmarkChars, isDigit c = false := by decide
      rw [hno _ this] at hd
      cases hd
  · intro ts1 m c ts2 e hts hc
    rw [eX] at e
    have hcm : c ∈ commonmarkChars := by rcases hc with rfl | rfl <;> decide
    obtain ⟨s, R, eR, hs'⟩ : ∃ s R, flatX (restX st false rest) = (false, s) :: R ∧ s ∈ [33, 42, 91, 95, 96] := by
      obtain ⟨c, X', e, hc⟩ := rest_start hS (k := false) hok h.nonempty
      exact ⟨c, _, by rw [e]; rfl, hc⟩
    have hs2 : isDigit s = false ∧ s ≠ 46 ∧ s ≠ 41 := by
      revert hs'
      exact forall_u8 (P := fun c => c ∈ [33, 42, 91, 95, 96] → isDigit c = false ∧ c ≠ 46 ∧ c ≠ 41) (by decide +kernel) s
    rw [eR] at e
    rcases List.append_eq_append_iff.1 e with ⟨a, ea, eb⟩ | ⟨a, ea, eb⟩
    · cases a with
      | nil =>
        cases eb
        rcases hc with hc | hc
        · exact absurd hc hs2.2.1
        · exact absurd hc hs2.2.2
      | cons y a =>
        cases eb
        have := hts (false, s) (by rw [ea]; simp)
        rw [show (false, s).2 = s from rfl, hs2.1] at this
        cases this
    · cases a with
      | nil =>
        cases eb
        rcases hc with hc | hc
        · exact absurd hc hs2.2.1
        · exact absurd hc hs2.2.2
      | cons y a =>
        cases eb
        exact (textToks_marked _ (m, c) (by rw [ea]; simp)).2 hcm

/-- A line that begins with an element is no heading, list item or fence. -/
theorem rich_elem_line (hS : StyleOK st) {rest : List (Inl × Bytes)} {v0 : Bytes} (hne : rest ≠ []) (hok : RestOK st [] v0 rest) {l : Bytes}
    (hl : renToks (P hs [] (restX st false rest) []) = l) :
    isAtxHeading l = false ∧ isBulletItem l = false ∧ isOrderedItem l = false ∧ ∀ ls, readFenced (l :: ls) = none := by
  cases rest with
  | nil => exact absurd rfl hne
  | cons x rest =>
    obtain ⟨i, v⟩ := x
    have hi := hok.head.elem
    obtain ⟨X', e⟩ := inl_start false hi
    have hc := startByte_mem hS i
    rw [restX] at hl
    generalize segX false (seenText v rest) ++ restX st false rest = Y at hl
    have e2 : l = startByte st i :: renToks (P hs [startByte st i] (X' ++ Y) []) := by
      rw [← hl, e]; rfl
    generalize hl' : renToks (P hs [startByte st i] (X' ++ Y) []) = l' at e2
    have hb : startByte st i = 42 → l' ≠ [] ∧ l'.head? ≠ some 32 ∧ l'.head? ≠ some 9 ∧ l'.head? ≠ some 13 := by
      intro h42
      cases i with
      | emph name first inner =>
        rw [Inl.OK] at hi
        obtain ⟨-, hin, -, hrest⟩ := hi
        obtain ⟨k, ek⟩ := delims_cons st name
        have e4 : st.delim name = 42 := h42
        obtain ⟨q1, q2⟩ := content_leading hS (k := false) hin hrest
        have q4 := noLeading_head_cr q2
        obtain ⟨q2, q3⟩ := noLeading_head q2
        have e3 : rawX (List.replicate k 42) ++ ((segX false (oneSpace first) ++ restX st false inner) ++ (rawX (delims st name) ++ Y)) = X' ++ Y := by
          have : Tok.raw 42 :: (rawX (List.replicate k 42) ++ ((segX false (oneSpace first) ++ restX st false inner) ++ rawX (delims st name))) = .raw 42 :: X' := by
            rw [h42] at e
            rw [← e, inlX, ek, e4]
            simp [rawX]
          rw [← (List.cons.inj this).2]
          simp
        rw [← e3] at hl'
        subst hl'
        cases k with
        | zero =>
          have e6 : rawX (List.replicate 0 42) ++ ((segX false (oneSpace first) ++ restX st false inner) ++ (rawX (delims st name) ++ Y)) =
              (segX false (oneSpace first) ++ restX st false inner) ++ (rawX (delims st name) ++ Y) := rfl
          rw [e6]
          have hsnd := P_snd (hs := hs) [] (segX false (oneSpace first) ++ restX st false inner ++ (rawX (delims st name) ++ Y)) [startByte st (.emph name first inner)]
          rw [List.map_append] at hsnd
          cases hC : (segX false (oneSpace first) ++ restX st false inner).map Tok.byte with
          | nil => exact absurd hC q1
          | cons b C =>
            rw [hC] at hsnd q2 q3 q4
            have hh := renToks_head (D := P hs [startByte st (.emph name first inner)] ((segX false (oneSpace first) ++ restX st false inner) ++ (rawX (delims st name) ++ Y)) [])
            rw [hsnd] at hh
            rcases hh with hh | hh
            · refine ⟨fun h => ?_, ?_, ?_, ?_⟩
              · rw [h] at hh; cases hh
              · rw [hh]; exact q2
              · rw [hh]; exact q3
              · rw [hh]; exact q4
            · refine ⟨fun h => ?_, ?_, ?_, ?_⟩
              · rw [h] at hh; cases hh
              · rw [hh]; decide
              · rw [hh]; decide
              · rw [hh]; decide
        | succ k =>
          have e6 : rawX (List.replicate (k + 1) 42) ++ ((segX false (oneSpace first) ++ restX st false inner) ++ (rawX (delims st name) ++ Y)) =
              .raw 42 :: (rawX (List.replicate k 42) ++ ((segX false (oneSpace first) ++ restX st false inner) ++ (rawX (delims st name) ++ Y))) := rfl
          rw [e6, P, renToks_cons_f]
          simp
      | code c => cases h42
      | link _ _ _ _ => cases h42
      | image _ _ _ => cases h42
    obtain ⟨h1, h2, h3⟩ := item_head hc hb
    rw [e2]
    refine ⟨h1, h2, h3, ?_⟩
    have easy : startByte st i ≠ 96 → ∀ ls, readFenced ((startByte st i :: l') :: ls) = none := by
      intro h96 ls
      have h126 : startByte st i ≠ 126 ∧ startByte st i ≠ 32 := by
        revert hc
        exact forall_u8 (P := fun c => c ∈ [33, 42, 91, 95, 96] → c ≠ 126 ∧ c ≠ 32) (by decide +kernel) _
      refine readFenced_none (by simpa using h126.2) ?_ ls
      rw [isFence, dropSpaces_of_head (by simpa using h126.2)]
      simp [h96, h126.1]
    cases i with
    | emph name first inner =>
      refine easy ?_
      rw [startByte]
      rcases hS.delim name with h | h <;> (rw [h]; decide)
    | code d =>
      intro ls
      rw [Inl.OK] at hi
      rw [← e2, ← hl, inlX, P_raw, renToks_append, ren_map_raw]
      exact code_no_fence hi ls
    | link _ _ _ _ => exact easy (by rw [startByte]; decide)
    | image _ _ _ => exact easy (by rw [startByte]; decide)

/-- The line is read back. -/
theorem rich_read (hst : IsStock dig hs) (hS : StyleOK st) {first : Bytes} {rest : List (Inl × Bytes)} (h : RichOK st first rest) (rev : Bytes) :
    ∀ f, (renToks (P hs rev (richX st first rest) [])).length < f → readSpans f [] none (renToks (P hs rev (richX st first rest) [])) =
      some (textSpans (shownFirst first) ++ spansRest st.resolve rest, []) := by
  intro f hf
  have hctx : CtxOK [] := by intro c n hm; cases hm
  have := read_rest hst hS (k := false) (ctx := []) hctx (fun h => by cases h) rest h.chars (shownFirst_seen first) (fun _ _ hm => by cases hm) h.elements
    (Z := []) Fine.nil (.inl ⟨rfl, rfl⟩) (fun prev rev f hf => by cases f with | zero => simp at hf | succ f => rfl) (prev := none) (.inr rfl) rev f
  rw [List.append_nil] at this
  exact this hf

/-- The line of a paragraph with elements in it. -/
theorem rich_line (hst : IsStock dig hs) (hdig : Props.DigitsOK dig) (hS : StyleOK st) (hbul : bullet ∈ [b!"-", b!"+", b!"*"]) {first : Bytes}
    {rest : List (Inl × Bytes)} (h : RichOK st first rest) :
    ParaLine bullet (textSpans (shownFirst first) ++ spansRest st.resolve rest) (renToks (W hs [] 0 (flatX (richX st first rest)))) := by
  have hok := h.elements
  have hf := rich_fine hS h
  have hloop := rich_loop hst hS h
  have hsnd : (P hs [] (richX st first rest) []).map Prod.snd = (richX st first rest).map Tok.byte := P_snd _ _ _
  have hmem : ∀ b ∈ renToks (P hs [] (richX st first rest) []), b = 92 ∨ b ∈ (richX st first rest).map Tok.byte := by
    intro b hb
    rw [renToks_by] at hb
    have := encBy_mem hb
    rwa [hsnd] at this
  have hnot : ∀ b ∈ [0, 10, 13], b ∉ renToks (P hs [] (richX st first rest) []) := by
    intro b hb hm
    rcases hmem b hm with e | hm
    · rw [e] at hb; revert hb; decide
    · obtain ⟨x, hx, e⟩ := List.mem_map.1 hm
      refine hf.bytes x hx ?_
      rw [e]
      revert hb
      exact forall_u8 (P := fun b => b ∈ [0, 10, 13] → b ∈ [0, 7, 10, 13]) (by decide +kernel) b
  have hlead : NoLeadingWhitespace (renToks (P hs [] (richX st first rest) [])) := by
    rw [renToks_by]; exact encBy_noLeading ws_bs (by rw [hsnd]; exact rich_leading hS h)
  have htrail : NoTrailingWhitespace (renToks (P hs [] (richX st first rest) [])) := by
    rw [renToks_by]; exact encBy_noTrailing ws_bs (by rw [hsnd]; exact rich_trailing hS h)
  have hcode : ¬ codeNewline <:+: renToks (P hs [] (richX st first rest) []) := by
    intro hc
    rw [renToks_by] at hc
    have := encBy_infix (by decide) (by decide) _ hc
    rw [hsnd] at this
    exact rich_code hS h this
  obtain ⟨x, hx, hx2⟩ := rich_visible h
  have hxl : x ∈ renToks (P hs [] (richX st first rest) []) := mem_renToks (by rw [hsnd]; exact hx)
  have hread := rich_read hst hS h []
  have hhead : ∀ c, (renToks (P hs [] (richX st first rest) [])).head? = some c → c ≠ 60 ∧ c ≠ 62 := by
    intro c hc
    rcases renToks_head (D := P hs [] (richX st first rest) []) with e | e
    · rw [e, hsnd, richX, List.map_append, (textX_seg h.chars (shownFirst_seen first)).bytes] at hc
      cases he : entityReplace (shownFirst first) with
      | nil =>
        rw [he, List.nil_append] at hc
        have := (rest_facts hS false rest hok).head c hc
        revert this
        exact forall_u8 (P := fun c => c ∈ [33, 42, 91, 95, 96] → c ≠ 60 ∧ c ≠ 62) (by decide +kernel) c
      | cons b s =>
        rw [he] at hc
        cases hc
        have := entityReplace_not (shownFirst first)
        rw [he] at this
        simp at this
        grind
    · rw [e] at hc; cases hc; decide
  rw [hloop]
  obtain ⟨hb1, hb2⟩ := noLeading_head hlead
  have hlast := noTrailing_last htrail
  have hblocks : isAtxHeading (renToks (P hs [] (richX st first rest) [])) = false ∧ isBulletItem (renToks (P hs [] (richX st first rest) [])) = false ∧
      isOrderedItem (renToks (P hs [] (richX st first rest) [])) = false ∧ ∀ ls, readFenced (renToks (P hs [] (richX st first rest) []) :: ls) = none := by
    by_cases hv : shownFirst first = []
    · have e : richX st first rest = restX st false rest := by rw [richX, hv, textX_nil, List.nil_append]
      rw [e]
      exact rich_elem_line hS h.nonempty hok rfl
    · obtain ⟨q1, q2, q3, q4⟩ := rich_text_line hst hdig hS h hv hloop hb1
      exact ⟨q1, q2, q3, readFenced_none hb1 q4⟩
  obtain ⟨q1, q2, q3, q4⟩ := hblocks
  generalize hL : renToks (P hs [] (richX st first rest) []) = l at *
  refine ⟨?_, ⟨hb1, hb2⟩, ⟨fun e => (hhead 60 e).1 rfl, fun e => (hhead 62 e).2 rfl⟩, thematic_none hxl hx2, readAtx_none hb1 q1, q4,
    readMarker_none hb1 q2 q3, ⟨q2, q3⟩, ?_, ?_, ⟨hnot 10 (by decide), hnot 13 (by decide), hnot 0 (by decide)⟩, hcode, hlead, htrail⟩
  · rintro rfl; cases hxl
  · rw [readInline, trimBlank_self ⟨hb1, hb2⟩ hlast, hread _ (by omega)]
    rfl
  · by_cases hp : bullet = [43]
    · exact .inl hp
    · right
      simp only [List.mem_cons, List.not_mem_nil, or_false, not_or] at hx2
      refine ⟨x, hxl, ?_, hx2.1, hx2.2.1⟩
      simp at hbul
      rcases hbul with rfl | rfl | rfl
      · simp [hx2]
      · exact absurd rfl hp
      · simp [hx2]

/-- A paragraph with elements in it. -/
def richPiece (st : Style) (first : Bytes) (rest : List (Inl × Bytes)) : Piece :=
  ⟨flatX (richX st first rest), [.paragraph (textSpans (shownFirst first) ++ spansRest st.resolve rest)], false⟩

/-- The line as the renderer writes it. -/
theorem rich_enc (hS : StyleOK st) {first : Bytes} {rest : List (Inl × Bytes)} (h : RichOK st first rest) :
    encToks (flatX (richX st first rest)) ≠ [] ∧ NoLeadingWhitespace (encToks (flatX (richX st first rest))) ∧
      NoTrailingWhitespace (encToks (flatX (richX st first rest))) ∧ NL ∉ encToks (flatX (richX st first rest)) ∧
      ¬ codeNewline <:+: encToks (flatX (richX st first rest)) := by
  have hsnd := flat_snd (richX st first rest)
  have hesc := escT_snd (richX st first rest)
  have e : encToks (flatX (richX st first rest)) = encBy MARK (flatX (richX st first rest)) := encToks_by _
  obtain ⟨x, hx, -⟩ := rich_visible h
  refine ⟨?_, ?_, ?_, ?_, ?_⟩
  · intro h0
    have : flatX (richX st first rest) = [] := by
      cases hF : flatX (richX st first rest) with
      | nil => rfl
      | cons t T =>
        rw [hF] at h0
        obtain ⟨m, c⟩ := t
        rw [encToks_by, encBy_cons] at h0
        simp at h0
    rw [this] at hsnd
    have h2 := mem_renToks (D := escT (richX st first rest)) (by rw [hesc]; exact hx)
    rw [renToks_by, ← hsnd] at h2
    cases h2
  · rw [e]; refine encBy_noLeading ws_mark ?_
    rw [hsnd]; exact encBy_noLeading ws_bs (by rw [hesc]; exact rich_leading hS h)
  · rw [e]; refine encBy_noTrailing ws_mark ?_
    rw [hsnd]; exact encBy_noTrailing ws_bs (by rw [hesc]; exact rich_trailing hS h)
  · rw [e]
    intro hm
    rcases encBy_mem hm with hm | hm
    · exact absurd hm (by decide)
    · rw [hsnd] at hm
      rcases encBy_mem hm with hm | hm
      · exact absurd hm (by decide)
      · rw [hesc, List.mem_map] at hm
        obtain ⟨y, hy, ey⟩ := hm
        refine (rich_fine hS h).bytes y hy ?_
        rw [ey]; decide
  · rw [e]
    intro hi
    have h1 := encBy_infix (by decide) (by decide) _ hi
    rw [hsnd] at h1
    have h2 := encBy_infix (by decide) (by decide) _ h1
    rw [hesc] at h2
    exact rich_code hS h h2

theorem rich_ok (hst : IsStock dig hs) (hdig : Props.DigitsOK dig) (hS : StyleOK st) (hbul : bullet ∈ [b!"-", b!"+", b!"*"]) {first : Bytes}
    {rest : List (Inl × Bytes)} (h : RichOK st first rest) : (richPiece st first rest).OK hs bullet := by
  have hl := rich_line hst hdig hS hbul h
  have hwf := (rich_fine hS h).wf
  have ef : (richPiece st first rest).fin hs = [renToks (W hs [] 0 (flatX (richX st first rest)))] := fin_line rfl hl.bytes.1 hl.code
  obtain ⟨r1, r2, r3, r4, r5⟩ := rich_enc hS h
  refine ⟨hwf, ?_, ?_, ?_, ?_, hl.bytes.2, out_mark hwf⟩
  · exact solid_line r1 r2 r3 r4 r5
  · exact solid_line hl.nonempty hl.leading hl.trailing hl.bytes.1 hl.code
  · rw [ef]; exact reads_para hl
  · rw [ef]; exact ⟨_, _, rfl, hl.visible, hl.first, fun _ => .inl hl.marker⟩

end Verif.Page
