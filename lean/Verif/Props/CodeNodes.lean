import Verif.Spec.CodeNodes
import Verif.Props.Render
import Verif.Props.Fenced
import Verif.Props.Code
/-!
# C93: coloured code
-/

namespace Verif.Props
open Verif Verif.Render Verif.Commonmark Verif.Spec

/-- Is a piece shown? -/
def shown (around : List Bytes) : Bool := around.all fun name => !noCode.contains name

/-- What a piece adds to the code. -/
def pieceCode : CodePiece → Bytes
  | .text d => d
  | .start name _ => if name ∈ [b!"br", b!"div"] then [10] else []

/-- The class of a piece. -/
def pieceClass : CodePiece → Option Bytes
  | .text _ => none
  | .start name attrs => if name ∈ [b!"pre", b!"code"] then some (Node.attrOr b!"class" [] (.elem name attrs [])) else none

mutual
theorem pieces_hidden : ∀ (n : Node) {around : List Bytes}, shown around = false → ((pieces around n).filter fun p => shown p.1) = []
  | .elem m a cs, around, h => by
    have h' : shown (m :: around) = false := by
      rw [shown] at h ⊢
      rw [List.all_cons, h, Bool.and_false]
    rw [pieces, List.filter_cons_of_neg (by simp [h']), piecesL_hidden cs h']
  | .document cs, _, h => by rw [pieces]; exact piecesL_hidden cs h
  | .text d, around, h => by simp [pieces, h]
  | .comment _, _, _ => rfl
  | .doctype _, _, _ => rfl
theorem piecesL_hidden : ∀ (ns : List Node) {around : List Bytes}, shown around = false → ((piecesL around ns).filter fun p => shown p.1) = []
  | [], _, _ => rfl
  | n :: ns, _, h => by rw [piecesL, List.filter_append, pieces_hidden n h, piecesL_hidden ns h]; rfl
end

theorem shown_cons {m : Bytes} {around : List Bytes} (h : shown around = true) :
    shown (m :: around) = !(decide (m = b!"style" ∨ m = b!"script" ∨ m = b!"textarea")) := by
  rw [shown] at h ⊢
  rw [List.all_cons, h, Bool.and_true, noCode]
  simp [List.contains_eq_mem]

mutual
theorem codeText_pieces : ∀ (n : Node) {around : List Bytes}, shown around = true →
    codeText n = ((pieces around n).filter fun p => shown p.1).flatMap fun p => pieceCode p.2
  | .elem m a cs, around, h => by
    have hs := shown_cons (m := m) h
    rw [codeText, pieces]
    by_cases hm : m = b!"style" ∨ m = b!"script" ∨ m = b!"textarea"
    · rw [if_pos hm]
      rw [decide_eq_true hm] at hs
      rw [List.filter_cons_of_neg (by simp [hs]), piecesL_hidden cs hs]
      rfl
    · rw [if_neg hm]
      rw [decide_eq_false hm] at hs
      rw [List.filter_cons_of_pos (by simp [hs]), List.flatMap_cons, ← codeTextL_pieces cs hs, pieceCode]
      by_cases hb : m = b!"br" ∨ m = b!"div"
      · rw [if_pos hb, if_pos (by simpa using hb)]; rfl
      · rw [if_neg hb, if_neg (by simpa using hb)]; rfl
  | .document cs, _, h => by rw [codeText, pieces]; exact codeTextL_pieces cs h
  | .text d, around, h => by simp [pieces, codeText, h, pieceCode]
  | .comment _, _, _ => rfl
  | .doctype _, _, _ => rfl
theorem codeTextL_pieces : ∀ (ns : List Node) {around : List Bytes}, shown around = true →
    codeTextL ns = ((piecesL around ns).filter fun p => shown p.1).flatMap fun p => pieceCode p.2
  | [], _, _ => rfl
  | n :: ns, _, h => by rw [codeTextL, piecesL, List.filter_append, List.flatMap_append, ← codeText_pieces n h, ← codeTextL_pieces ns h]
end

/-- **C93**: the code of an element is its texts, with line breaks for `br` and `div`; other elements in it leave no trace. -/
theorem c93_code (n : Node) : codeText n = codeOf n := by
  rw [codeText_pieces n (around := []) rfl, codeOf, shownPieces, List.flatMap_map]
  rfl

/-- The first language that a class names. -/
def firstLanguage (classes : List Bytes) : Bytes := ((classes.map codeLanguage).find? fun l => l ≠ []).getD []

theorem firstLanguage_append (a b : List Bytes) : firstLanguage (a ++ b) = if firstLanguage a = [] then firstLanguage b else firstLanguage a := by
  rw [firstLanguage, firstLanguage, firstLanguage, List.map_append, List.find?_append]
  cases h : (a.map codeLanguage).find? fun l => l ≠ [] with
  | none => simp
  | some l =>
    have := List.find?_some h
    simp only [decide_eq_true_eq] at this
    simp [this]

mutual
theorem codeInfo_pieces : ∀ (n : Node) {around : List Bytes} (info : Bytes), shown around = true →
    codeInfo info n = if info = [] then firstLanguage (((pieces around n).filter fun p => shown p.1).filterMap fun p => pieceClass p.2) else info
  | .elem m a cs, around, info, h => by
    have hs := shown_cons (m := m) h
    have hcls : Node.attrOr b!"class" [] (.elem m a cs) = Node.attrOr b!"class" [] (.elem m a []) := rfl
    have hone : ∀ x : List Bytes, (if (m = b!"code" ∨ m = b!"pre") ∧ info = [] then codeLanguage (Node.attrOr b!"class" [] (.elem m a cs)) else info) =
        if info = [] then firstLanguage (pieceClass (.start m a)).toList else info := by
      intro _
      rw [pieceClass, hcls]
      by_cases hi : info = []
      · by_cases hm : m = b!"code" ∨ m = b!"pre"
        · rw [if_pos ⟨hm, hi⟩, if_pos hi, if_pos (by simpa [or_comm] using hm), firstLanguage]
          generalize Node.attrOr b!"class" [] (.elem m a []) = c
          by_cases hc : codeLanguage c = [] <;> simp [hc]
        · rw [if_neg (fun h => hm h.1), if_pos hi, if_neg (by simpa [or_comm] using hm), hi]; rfl
      · rw [if_neg (fun h => hi h.2), if_neg hi]
    rw [codeInfo, pieces]
    rw [hone []]
    by_cases hm : m = b!"style" ∨ m = b!"script" ∨ m = b!"textarea"
    · rw [if_pos hm]
      rw [decide_eq_true hm] at hs
      rw [List.filter_cons_of_neg (by simp [hs]), piecesL_hidden cs hs]
      have : pieceClass (.start m a) = none := by
        rw [pieceClass, if_neg]
        rcases hm with rfl | rfl | rfl <;> decide
      rw [this]
      rfl
    · rw [if_neg hm]
      rw [decide_eq_false hm] at hs
      rw [List.filter_cons_of_pos (by simp [hs]), codeInfoL_pieces cs _ hs]
      have e : ∀ (p : List Bytes × CodePiece) (l : List (List Bytes × CodePiece)), (p :: l).filterMap (fun p => pieceClass p.2) =
          (pieceClass p.2).toList ++ l.filterMap fun p => pieceClass p.2 := by
        intro p l
        rw [List.filterMap_cons]
        cases pieceClass p.2 <;> rfl
      rw [e, firstLanguage_append]
      by_cases hi : info = []
      · simp only [if_pos hi]
      · simp only [if_neg hi]
  | .document cs, _, info, h => by rw [codeInfo, pieces]; exact codeInfoL_pieces cs info h
  | .text d, around, info, h => by
    rw [codeInfo, pieces, List.filter_cons_of_pos (by simpa using h)]
    split
    · rename_i e; rw [e]; rfl
    · rfl
  | .comment _, _, info, _ => by rw [codeInfo]; split <;> simp_all [pieces, firstLanguage]
  | .doctype _, _, info, _ => by rw [codeInfo]; split <;> simp_all [pieces, firstLanguage]
theorem codeInfoL_pieces : ∀ (ns : List Node) {around : List Bytes} (info : Bytes), shown around = true →
    codeInfoL info ns = if info = [] then firstLanguage (((piecesL around ns).filter fun p => shown p.1).filterMap fun p => pieceClass p.2) else info
  | [], _, info, _ => by rw [codeInfoL]; split <;> simp_all [piecesL, firstLanguage]
  | n :: ns, _, info, h => by
    rw [codeInfoL, piecesL, List.filter_append, List.filterMap_append, codeInfoL_pieces ns _ h, codeInfo_pieces n info h, firstLanguage_append]
    by_cases hi : info = []
    · simp only [if_pos hi]
    · simp only [if_neg hi]
end

/-- **C93**: the language is the first one that the class of a `pre` or `code` element names (for what a class names see C19). -/
theorem c93_language (n : Node) : codeInfo [] n = firstLanguage (codeClasses n) := by
  rw [codeInfo_pieces n (around := []) [] rfl, if_pos rfl, codeClasses, shownPieces, List.filterMap_map]
  rfl

/-- **C93**, with C19 and C20, partial: wherever a `pre` element is rendered, in the final Markdown a CommonMark parser reads a code block with its language and the
lines of its code.  Missing is what is missing there: languages with odd characters and code with the markers of the library. -/
theorem c93_block_partial (E : Env) (link stuck : Bool) (a : List (Bytes × Bytes)) (cs : List Node) {c : UInt8} (hc : c = 96 ∨ c = 126)
    (hfence : E.cfg.codeBlockFence = [c, c, c])
    (hi : ∀ b ∈ [10, 7, c, 9], b ∉ firstLanguage (codeClasses (.elem b!"pre" a cs))) (hm : ¬ codeNewline <:+: firstLanguage (codeClasses (.elem b!"pre" a cs)))
    (hcode : 7 ∉ codeOf (.elem b!"pre" a cs) ∧ ¬ codeNewline <:+: codeOf (.elem b!"pre" a cs)) :
    ∃ r, renderNode E link stuck (.elem b!"pre" a cs) = some r ∧ ∀ before after : Bytes, ∃ n x y code', WithoutLastNewline (codeOf (.elem b!"pre" a cs)) code' ∧
      postRender E.mode (handlers E) (before ++ r ++ after) = x ++ fencedBlock c n (firstLanguage (codeClasses (.elem b!"pre" a cs))) code' ++ y ∧
      (x = [] ∨ x.getLast? = some 10) ∧ (y = [] ∨ ∃ y', y = 10 :: y') ∧
      Spec.readFenced (Spec.lines (fencedBlock c n (firstLanguage (codeClasses (.elem b!"pre" a cs))) code' ++ y)) =
        some { info := firstLanguage (codeClasses (.elem b!"pre" a cs)), code := Spec.lines code', closed := true,
               rest := if y = [] then [] else Spec.lines (y.drop 1) } := by
  have hr : renderNode E link stuck (.elem b!"pre" a cs) =
      some (blockCode c (firstLanguage (codeClasses (.elem b!"pre" a cs))) (codeOf (.elem b!"pre" a cs))) := by
    rw [renderNode]
    rw [if_neg (by decide), if_neg (by decide), if_neg (by decide), if_neg (by decide), if_pos rfl, c93_code, c93_language, hfence]
    rfl
  have h32 : 32 ∉ firstLanguage (codeClasses (.elem b!"pre" a cs)) := by
    rw [firstLanguage]
    generalize codeClasses (.elem b!"pre" a cs) = classes
    intro h
    cases e : (classes.map codeLanguage).find? fun l => l ≠ [] with
    | none => rw [e] at h; simp at h
    | some l =>
      rw [e] at h
      have := List.mem_of_find?_eq_some e
      rw [List.mem_map] at this
      obtain ⟨cls, -, rfl⟩ := this
      exact c19_language_no_space cls h
  exact ⟨_, hr, fun before after => c20_survives_partial E.mode (handlers E) c hc _ _ before after
    ⟨hi 10 (by simp), hi 7 (by simp), hi c (by simp), h32, hi 9 (by simp), hm⟩ hcode⟩

/-- **C93**, with C18, partial: an inline code element that is not blank is read back as its code, in one line and without white space at its ends.  Missing is what is
missing in C18. -/
theorem c93_inline_partial (E : Env) (link stuck : Bool) {name : Bytes} (hn : name ∈ [b!"code", b!"var", b!"samp", b!"kbd", b!"tt"]) (a : List (Bytes × Bytes)) (cs : List Node)
    (hb : ¬ Spec.AllWhitespace (codeOf (.elem name a cs))) (h13 : 13 ∉ codeOf (.elem name a cs)) :
    ∃ r, renderNode E link stuck (.elem name a cs) = some r ∧ ∀ rest : Bytes, rest.head? ≠ some 96 →
      ∃ mid, Spec.Trimmed (Spec.asSpaces (codeOf (.elem name a cs))) mid ∧ Spec.readCodeSpan (r ++ rest) = some
        ((if mid.head? = some 96 ∧ mid.getLast? ≠ some 96 then [32] else []) ++ Spec.squeeze mid ++
         (if mid.head? ≠ some 96 ∧ mid.getLast? = some 96 then [32] else []), rest) := by
  have hr : renderNode E link stuck (.elem name a cs) = some (inlineCode (codeOf (.elem name a cs))) := by
    rw [renderNode]
    simp only [List.mem_cons, List.not_mem_nil, or_false] at hn
    rcases hn with rfl | rfl | rfl | rfl | rfl <;>
      rw [if_neg (by decide), if_neg (by decide), if_neg (by decide), if_neg (by decide), if_neg (by decide), if_pos (by decide), c93_code]
  exact ⟨_, hr, fun rest hrest => c18_code_span_partial _ rest hb h13 hrest⟩

/-! ### Beside the theorems -/

/-- `<pre class="lang-"><code class="hl language-go"><div>a <b>:=</b></div><script>x</script><span>1</span><br></code></pre>` -/
def colouredCode : Node := .elem b!"pre" [(b!"class", b!"lang-")] [.elem b!"code" [(b!"class", b!"hl language-go")]
  [.elem b!"div" [] [.text b!"a ", .elem b!"b" [] [.text b!":="]], .elem b!"script" [] [.text b!"x"], .elem b!"span" [] [.text b!"1"], .elem b!"br" [] []]]
example : codeOf colouredCode = b!"\na :=1\n" ∧ codeClasses colouredCode = [b!"lang-", b!"hl language-go"] := by decide +kernel
example : firstLanguage [b!"lang-", b!"hl language-go"] = b!"go" := by decide +kernel
example : ¬ Spec.AllWhitespace (codeOf (.elem b!"kbd" [] [.elem b!"b" [] [.text b!"Ctrl"], .text b!" x"])) ∧
    13 ∉ codeOf (.elem b!"kbd" [] [.elem b!"b" [] [.text b!"Ctrl"], .text b!" x"]) :=
  ⟨fun h => absurd ((trimSpace_nil_iff _).2 h) (by decide +kernel), by decide +kernel⟩

end Verif.Props
