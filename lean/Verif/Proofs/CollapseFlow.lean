import Verif.Proofs.CollapseTwice
/-!
# What is seen of a tree whose white space has been collapsed
-/
set_option linter.unusedSimpArgs false

namespace Verif.Collapse
open Verif Verif.Spec Verif.Dom

/-- What the walk comes across. -/
inductive Step where
  | text (d : Bytes)
  | line
  | solid
  /-- an element that is none of these -/
  | soft
deriving DecidableEq

def mark (f : DomFuncs) (n : Bytes) : Step :=
  if f.isBlock n || n = b!"br" then .line
  else if f.isVoid n || f.isPre n || n = b!"code" then .solid
  else .soft

mutual
def steps (f : DomFuncs) : Node → List Step
  | .text d => [.text d]
  | .comment _ => []
  | .doctype _ => []
  | .document cs => stepsL f cs
  | .elem n _ cs => if f.isPre n then [mark f n] else mark f n :: (stepsL f cs ++ [mark f n])
def stepsL (f : DomFuncs) : List Node → List Step
  | [] => []
  | n :: ns => steps f n ++ stepsL f ns
end

theorem stepsL_append (f : DomFuncs) (a b : List Node) : stepsL f (a ++ b) = stepsL f a ++ stepsL f b := by
  induction a with
  | nil => rfl
  | cons x a ih => simp [stepsL, ih]

theorem stepsL_one (f : DomFuncs) (n : Node) : stepsL f [n] = steps f n := by simp [stepsL]

/-- The first part, on steps. -/
def step1 (s : Vars) : Step → List Step × Vars
  | .text d => ((firstText s d).1.flatMap fun | .text t => [.text t] | _ => [], (firstText s d).2)
  | .line => ([.line], ⟨none, false⟩)
  | .solid => ([.solid], ⟨none, true⟩)
  | .soft => ([.soft], if s.prev.isSome then { s with keep := false } else s)

def steps1 (s : Vars) : List Step → List Step × Vars
  | [] => ([], s)
  | x :: xs =>
    let r := step1 s x
    let rs := steps1 r.2 xs
    (r.1 ++ rs.1, rs.2)

/-- The second part, on steps. -/
def step2 (next : Next) : Step → List Step × Next
  | .text d =>
    match next with
    | .other => ([.text d], .other)
    | .block => ([.text (trimSuffix d)], .other)
    | .stop => (if trimSuffix d = [] then [] else [.text (trimSuffix d)], .other)
  | .line => ([.line], .block)
  | .solid => ([.solid], .other)
  | .soft => ([.soft], next)

def steps2 (next : Next) : List Step → List Step × Next
  | [] => ([], next)
  | x :: xs =>
    let rs := steps2 next xs
    let r := step2 rs.2 x
    (r.1 ++ rs.1, r.2)

theorem steps1_append (a b : List Step) : ∀ s, steps1 s (a ++ b) =
    ((steps1 s a).1 ++ (steps1 (steps1 s a).2 b).1, (steps1 (steps1 s a).2 b).2) := by
  induction a with
  | nil => intro s; rfl
  | cons x a ih => intro s; simp only [List.cons_append, steps1, ih, List.append_assoc]

theorem steps2_append (a b : List Step) : ∀ s, steps2 s (a ++ b) =
    ((steps2 (steps2 s b).2 a).1 ++ (steps2 s b).1, (steps2 (steps2 s b).2 a).2) := by
  induction a with
  | nil => intro s; rfl
  | cons x a ih => intro s; simp only [List.cons_append, steps2, ih, List.append_assoc]

theorem step1_mark (f : DomFuncs) (s : Vars) (n : Bytes) : step1 s (mark f n) = ([mark f n], visit f s n) := by
  rw [mark, visit]
  split
  · rfl
  · split
    · rfl
    · rfl

theorem step2_mark (f : DomFuncs) (s : Next) (n : Bytes) : step2 s (mark f n) = ([mark f n], before f s n) := by
  rw [mark, before]
  split
  · rfl
  · split
    · rfl
    · rfl

mutual
/-- No document node, apart from the content of preformatted elements. -/
def noDoc (f : DomFuncs) : Node → Prop
  | .document _ => False
  | .elem n _ cs => f.isPre n = false → noDocL f cs
  | _ => True
def noDocL (f : DomFuncs) : List Node → Prop
  | [] => True
  | n :: ns => noDoc f n ∧ noDocL f ns
end

theorem first_steps (f : DomFuncs) :
    (∀ n, ∀ s, noDoc f n → steps1 s (steps f n) = (stepsL f (first f s n).1, (first f s n).2)) ∧
    (∀ ns, ∀ s, noDocL f ns → steps1 s (stepsL f ns) = (stepsL f (firstL f s ns).1, (firstL f s ns).2)) := by
  apply induct
  · intro d s _
    simp only [steps, steps1, step1, first, List.append_nil]
    rcases firstText_cases s d with h1 | ⟨t, h1, _⟩
    · rw [h1]; rfl
    · rw [h1]; rfl
  · intro d s _; rfl
  · intro d s _; rfl
  · intro cs _ s h; exact absurd h (by simp [noDoc])
  · intro n a cs ih s h
    rw [steps, first]
    split
    · rename_i hp
      simp [steps1, step1_mark, stepsL, steps, hp]
    · rename_i hp
      simp only [steps1, step1_mark, steps1_append]
      rw [ih _ (h (by simpa using hp))]
      simp [stepsL, steps, hp]
  · intro s _; rfl
  · intro n ns ih1 ih2 s h
    rw [stepsL, steps1_append, ih1 s h.1]
    simp only [ih2 _ h.2, firstL, stepsL_append]

theorem first_noDoc (f : DomFuncs) :
    (∀ n, ∀ s, noDoc f n → noDocL f (first f s n).1) ∧
    (∀ ns, ∀ s, noDocL f ns → noDocL f (firstL f s ns).1) := by
  have happ : ∀ a b : List Node, noDocL f a → noDocL f b → noDocL f (a ++ b) := by
    intro a b ha hb
    induction a with
    | nil => exact hb
    | cons x a ih => exact ⟨ha.1, ih ha.2⟩
  apply induct
  · intro d s _
    rw [first]
    rcases firstText_cases s d with h1 | ⟨t, h1, _⟩
    · rw [h1]; trivial
    · rw [h1]; exact ⟨trivial, trivial⟩
  · intro d s _; exact ⟨trivial, trivial⟩
  · intro d s _; trivial
  · intro cs _ s h; exact absurd h (by simp [noDoc])
  · intro n a cs ih s h
    rw [first]
    split
    · exact ⟨h, trivial⟩
    · rename_i hp
      exact ⟨fun hp => ih _ (h hp), trivial⟩
  · intro s _; trivial
  · intro n ns ih1 ih2 s h
    rw [firstL]
    exact happ _ _ (ih1 _ h.1) (ih2 _ h.2)

theorem second_steps (f : DomFuncs) :
    (∀ n, ∀ s, noDoc f n → steps2 s (steps f n) = (stepsL f (second f s n).1, (second f s n).2)) ∧
    (∀ ns, ∀ s, noDocL f ns → steps2 s (stepsL f ns) = (stepsL f (secondL f s ns).1, (secondL f s ns).2)) := by
  apply induct
  · intro d s _
    cases s with
    | other => simp [steps, steps2, step2, second, stepsL]
    | block => simp [steps, steps2, step2, second, stepsL]
    | stop =>
      simp only [steps, steps2, step2, second, List.append_nil]
      split <;> simp [stepsL, steps]
  · intro d s _; rfl
  · intro d s _; rfl
  · intro cs _ s h; exact absurd h (by simp [noDoc])
  · intro n a cs ih s h
    rw [steps, second]
    split
    · rename_i hp
      simp [steps2, step2_mark, stepsL, steps, hp]
    · rename_i hp
      simp only [steps2, step2_mark, steps2_append, List.append_nil]
      rw [ih _ (h (by simpa using hp))]
      simp [stepsL, steps, hp]
  · intro s _; rfl
  · intro n ns ih1 ih2 s h
    rw [stepsL, steps2_append, ih2 _ h.2]
    simp only [ih1 _ h.1, secondL, stepsL_append]

/-- The pieces seen. -/
def strip : List Step → List Piece
  | [] => []
  | .text d :: l => .text d :: strip l
  | .line :: l => .line :: strip l
  | .solid :: l => .solid :: strip l
  | .soft :: l => strip l

theorem strip_append (a b : List Step) : strip (a ++ b) = strip a ++ strip b := by
  induction a with
  | nil => rfl
  | cons x a ih => cases x <;> simp [strip, ih]

def layout (f : DomFuncs) : FlowLayout := ⟨f.isBlock, f.isVoid, f.isPre⟩

theorem strip_mark (f : DomFuncs) (n : Bytes) (l : List Step) : strip (mark f n :: l) = (layout f).boundary n ++ strip l := by
  rw [mark, FlowLayout.boundary]
  have h1 : (layout f).isBlock n = f.isBlock n := rfl
  have h2 : (layout f).isVoid n = f.isVoid n := rfl
  have h3 : (layout f).isPre n = f.isPre n := rfl
  rw [h1, h2, h3]
  split
  · rfl
  · split <;> rfl

theorem strip_steps (f : DomFuncs) :
    (∀ n, strip (steps f n) = flow (layout f) n) ∧ (∀ ns, strip (stepsL f ns) = flowL (layout f) ns) := by
  apply induct
  · intro d; rfl
  · intro d; rfl
  · intro d; rfl
  · intro cs ih; rw [steps, flow, ih]
  · intro n a cs ih
    rw [steps, flow]
    have : (layout f).isPre n = f.isPre n := rfl
    rw [this]
    split
    · rw [strip_mark]; simp [strip]
    · rw [strip_mark, strip_append, strip_mark, ih]; simp [strip]
  · rfl
  · intro n ns ih1 ih2
    rw [stepsL, flowL, strip_append, ih1, ih2]

/-- No two texts without an element between them. -/
def apartS : Bool → List Step → Prop
  | _, [] => True
  | b, .text _ :: l => b = false ∧ apartS true l
  | _, _ :: l => apartS false l

theorem apartS_weaken : ∀ {l : List Step}, apartS true l → ∀ b, apartS b l
  | [], _, _ => trivial
  | .text d :: l, h, _ => by simp [apartS] at h
  | .line :: l, h, _ => h
  | .solid :: l, h, _ => h
  | .soft :: l, h, _ => h

theorem apartS_mark {f : DomFuncs} {n : Bytes} {b : Bool} {l : List Step} : apartS b (mark f n :: l) ↔ apartS false l := by
  rw [mark]
  split
  · rfl
  · split <;> rfl

theorem apart_steps (f : DomFuncs) :
    (∀ n, ∀ b l, noDoc f n → ApartL f b [n] →
      (∀ c, ApartL f b [n] → (match n with | .text _ => c = true | .elem _ _ _ => c = false | _ => c = b) → apartS c l) →
      apartS b (steps f n ++ l)) ∧
    (∀ ns, ∀ b l, noDocL f ns → ApartL f b ns → (∀ c, apartS c l) → apartS b (stepsL f ns ++ l)) := by
  apply induct
  · intro d b l _ h hl
    exact ⟨h.1, hl true h rfl⟩
  · intro d b l _ h hl; exact hl b h rfl
  · intro d b l _ h hl; exact hl b h rfl
  · intro cs _ b l h; exact absurd h (by simp [noDoc])
  · intro n a cs ih b l h ha hl
    rw [steps]
    split
    · rw [List.cons_append, apartS_mark]
      exact hl false ha rfl
    · rename_i hp
      rw [List.cons_append, apartS_mark, List.append_assoc]
      refine ih false _ (h (by simpa using hp)) (ha.1 (by simpa using hp)) ?_
      intro c
      rw [List.cons_append, apartS_mark]
      exact hl false ha rfl
  · intro b l _ _ hl; exact hl b
  · intro n ns ih1 ih2 b l h ha hl
    rw [stepsL, List.append_assoc]
    cases n with
    | text d =>
      exact ih1 b _ h.1 ⟨ha.1, trivial⟩ fun c _ hc => ih2 c l h.2 (by rw [hc]; exact ha.2) hl
    | comment d => exact ih1 b _ h.1 trivial fun c _ hc => ih2 c l h.2 (by rw [hc]; exact ha) hl
    | doctype d => exact ih1 b _ h.1 trivial fun c _ hc => ih2 c l h.2 (by rw [hc]; exact ha) hl
    | document cs => exact absurd h.1 (by simp [noDoc])
    | elem m a cs =>
      exact ih1 b _ h.1 ⟨ha.1, trivial⟩ fun c _ hc => ih2 c l h.2 (by rw [hc]; exact ha.2) hl

/-! ## The walk -/

/-- Without a leading space if `left`. -/
def dropLead (left : Bool) (s : Bytes) : Bytes := if left && s.head? = some 32 then s.tail else s

/-- What the variables say about the text since the last boundary. -/
structure Known (left after : Bool) (out : Bytes) (s : Vars) : Prop where
  prev : s.prev = if out = [] then none else some (decide (out.getLast? = some SP))
  keep : s.keep = true → left = false ∧ (out = [] ∨ after = true)
  start : left = false → out = [] → s.keep = true

theorem inRun_last (s : Bytes) : s ≠ [] → inRun false s = decide ((oneSpace s).getLast? = some 32) := by
  intro h
  rcases List.eq_nil_or_concat s with h' | ⟨l, x, rfl⟩
  · exact absurd h' h
  · rw [List.concat_eq_append, oneSpace, oneSpaceAfter_append]
    have e1 : inRun false (l ++ [x]) = isHtmlSpace x := by rw [inRun, List.foldl_append]; rfl
    rw [e1]
    simp only [oneSpaceAfter]
    by_cases hx : isHtmlSpace x = true
    · simp only [hx, if_true]
      cases hr : inRun false l
      · simp
      · simp only [if_true, List.append_nil]
        clear e1 h
        -- the run began before: the text ends with a space
        have : ∀ (l : Bytes) (p : Bool), inRun p l = true → l ≠ [] → (oneSpaceAfter p l).getLast? = some 32 ∨ p = true ∧ oneSpaceAfter p l = [] := by
          intro l
          induction l with
          | nil => intro p _ h; exact absurd rfl h
          | cons y l ih =>
            intro p h _
            by_cases hl : l = []
            · subst hl
              have hy : isHtmlSpace y = true := h
              cases p <;> simp [oneSpaceAfter, hy]
            · have h' : inRun (isHtmlSpace y) l = true := h
              have := ih _ h' hl
              simp only [oneSpaceAfter]
              by_cases hy : isHtmlSpace y = true
              · simp only [hy] at this
                simp only [hy, if_true]
                cases p
                · simp only [Bool.false_eq_true, if_false]
                  left
                  rcases this with h1 | ⟨_, h1⟩
                  · rw [List.getLast?_cons, h1]; rfl
                  · rw [h1]; rfl
                · simp only [if_true]
                  exact this.imp id fun h => ⟨trivial, h.2⟩
              · simp only [Bool.not_eq_true] at hy
                simp only [hy] at this
                simp only [hy, Bool.false_eq_true, if_false]
                left
                rcases this with h1 | ⟨h1, _⟩
                · rw [List.getLast?_cons, h1]; rfl
                · exact absurd h1 (by simp)
        have hl : l ≠ [] := by rintro rfl; simp [inRun] at hr
        rcases this l false hr hl with h1 | ⟨h1, _⟩
        · simp [h1]
        · simp at h1
    · simp only [hx, Bool.false_eq_true, if_false]
      have hx32 : x ≠ 32 := by rintro rfl; simp [isHtmlSpace] at hx
      simp only [Bool.not_eq_true] at hx
      simp [hx32]

theorem oneSpace_nil {s : Bytes} (h : oneSpace s = []) : s = [] := by
  cases s with
  | nil => rfl
  | cons b s => simp only [oneSpace, oneSpaceAfter] at h; split at h <;> simp at h

theorem oneSpace_append (a d : Bytes) : oneSpace (a ++ d) =
    oneSpace a ++ dropLead (decide ((oneSpace a).getLast? = some 32)) (oneSpace d) := by
  rw [oneSpace, oneSpaceAfter_append]
  by_cases ha : a = []
  · subst ha; simp [oneSpaceAfter, inRun, oneSpace, dropLead]
  · rw [inRun_last a ha]
    cases h : decide ((oneSpace a).getLast? = some 32)
    · simp [dropLead, oneSpace]
    · rw [oneSpaceAfter_true]
      by_cases hh : (oneSpaceAfter false d).head? = some 32
      · simp [dropLead, oneSpace, hh]
      · simp [dropLead, oneSpace, hh]

theorem getLast_suffix {a b : Bytes} (h : a ≠ []) (hs : a <:+ b) : a.getLast? = b.getLast? := by
  obtain ⟨c, rfl⟩ := hs
  rw [List.getLast?_append]
  cases ha : a.getLast? with
  | none => exact absurd (List.getLast?_eq_none_iff.1 ha) h
  | some x => rfl

theorem dropLead_suffix (l : Bool) (s : Bytes) : dropLead l s <:+ s := by
  rw [dropLead]; split
  · exact List.tail_suffix s
  · exact List.suffix_refl s

theorem firstText_out (s : Vars) (d : Bytes) :
    firstText s d = if dropLead (decide ((s.prev = none ∨ s.prev = some true) ∧ s.keep = false)) (oneSpace d) = [] then ([], s)
      else ([.text (dropLead (decide ((s.prev = none ∨ s.prev = some true) ∧ s.keep = false)) (oneSpace d))],
        { s with prev := some ((dropLead (decide ((s.prev = none ∨ s.prev = some true) ∧ s.keep = false)) (oneSpace d)).getLast? = some SP) }) := by
  rw [firstText, replaceWs_eq]
  have : (if (s.prev = none ∨ s.prev = some true) ∧ s.keep = false ∧ (oneSpace d).head? = some SP then (oneSpace d).tail else oneSpace d) =
      dropLead (decide ((s.prev = none ∨ s.prev = some true) ∧ s.keep = false)) (oneSpace d) := by
    rw [dropLead]
    by_cases h1 : (s.prev = none ∨ s.prev = some true) ∧ s.keep = false
    · simp [h1, and_assoc]
    · rw [if_neg (by rintro ⟨a, b, _⟩; exact h1 ⟨a, b⟩)]
      simp [h1]
  simp only [this]

theorem dropLead_cons (l : Bool) (b : UInt8) (r : Bytes) : dropLead l (b :: r) = if l = true ∧ b = 32 then r else b :: r := by
  rw [dropLead]
  by_cases h : l = true ∧ b = 32
  · simp [h]
  · rw [if_neg h]
    cases l with
    | false => simp
    | true => simp at h; simp [h]

/-- One more text. -/
theorem out_text {left : Bool} {acc out : Bytes} {s : Vars} (ho : out = dropLead left (oneSpace acc)) (hk : Known left false out s) (d : Bytes) :
    out ++ dropLead (decide ((s.prev = none ∨ s.prev = some true) ∧ s.keep = false)) (oneSpace d) = dropLead left (oneSpace (acc ++ d)) := by
  rw [oneSpace_append]
  have hkeep := hk.keep
  simp only [Bool.false_eq_true, or_false] at hkeep
  by_cases h0 : out = []
  · have hp : s.prev = none := by rw [hk.prev, if_pos h0]
    rw [h0, List.nil_append]
    cases left with
    | false =>
      have := hk.start rfl h0
      rw [h0, dropLead] at ho
      simp only [Bool.false_and, Bool.false_eq_true, if_false] at ho
      simp [this, dropLead, ← ho]
    | true =>
      have hkf : s.keep = false := by
        cases h : s.keep with
        | false => rfl
        | true => have := (hkeep h).1; simp at this
      simp only [hp, hkf, true_or, true_and, decide_true]
      rw [h0, dropLead] at ho
      cases hw : oneSpace acc with
      | nil => simp [dropLead]
      | cons b r =>
        rw [hw] at ho
        simp only [Bool.true_and, List.head?_cons, List.tail_cons] at ho
        split at ho
        · rename_i hb
          simp at hb
          subst hb
          rw [← ho]
          simp [dropLead]
        · simp at ho
  · have hkf : s.keep = false := by
      cases h : s.keep with
      | false => rfl
      | true => have := (hkeep h).2; exact absurd this h0
    have hp : s.prev = some (decide (out.getLast? = some SP)) := by rw [hk.prev, if_neg h0]
    have hl : out.getLast? = (oneSpace acc).getLast? := getLast_suffix h0 (by rw [ho]; exact dropLead_suffix _ _)
    have hw : oneSpace acc ≠ [] := by
      intro h; rw [h] at ho; simp [dropLead] at ho; exact h0 ho
    have e : decide ((s.prev = none ∨ s.prev = some true) ∧ s.keep = false) = decide ((oneSpace acc).getLast? = some 32) := by
      rw [hp, hl, hkf]
      simp
    rw [e, ho]
    generalize dropLead (decide ((oneSpace acc).getLast? = some 32)) (oneSpace d) = X
    cases hw' : oneSpace acc with
    | nil => exact absurd hw' hw
    | cons b r =>
      rw [List.cons_append, dropLead_cons, dropLead_cons]
      split <;> rfl

theorem trimSuffix_append {a t : Bytes} (h : t ≠ []) : trimSuffix (a ++ t) = a ++ trimSuffix t := by
  rw [trimSuffix, trimSuffix]
  have : (a ++ t).getLast? = t.getLast? := (getLast_suffix h ⟨a, rfl⟩).symm
  rw [this]
  split
  · exact List.dropLast_append_of_ne_nil h
  · rfl

def trimmed (next : Next) (out : Bytes) : Bytes := if next = .other then out else trimSuffix out

theorem trimmed_append {next : Next} {a t : Bytes} (h : t ≠ []) : trimmed next (a ++ t) = a ++ trimmed next t := by
  rw [trimmed, trimmed]; split
  · rfl
  · exact trimSuffix_append h

theorem joined_text (out t : Bytes) (l : List Piece) : joined out (.text t :: l) = joined (out ++ t) l := rfl

theorem step2_text (next : Next) (t : Bytes) (l : List Step) (out : Bytes) :
    (step2 next (.text t)).2 = .other ∧
    joined out (strip ((step2 next (.text t)).1 ++ l)) = joined (out ++ trimmed next t) (strip l) := by
  cases next with
  | other => exact ⟨rfl, rfl⟩
  | block => exact ⟨rfl, rfl⟩
  | stop =>
    refine ⟨rfl, ?_⟩
    simp only [step2, trimmed]
    split
    · rename_i h0; simp [h0]
    · simp [strip, joined]

theorem tidyText_eq (left right : Bool) (acc : Bytes) : tidyText left right acc =
    if (if right then trimSuffix (dropLead left (oneSpace acc)) else dropLead left (oneSpace acc)) = [] then []
    else [.text (if right then trimSuffix (dropLead left (oneSpace acc)) else dropLead left (oneSpace acc))] := by
  rw [tidyText]
  cases right
  · simp [dropLead]
  · simp [dropLead, trimSuffix]

theorem steps_flow : ∀ (l : List Step) (s : Vars) (after left : Bool) (acc out : Bytes), apartS after l →
    out = dropLead left (oneSpace acc) → Known left after out s →
    joined (trimmed (steps2 .stop (steps1 s l).1).2 out) (strip (steps2 .stop (steps1 s l).1).1) = tidy left acc (strip l)
  | [], s, after, left, acc, out, _, ho, hk => by
    simp only [steps1, steps2, strip, tidy, joined, trimmed, tidyText_eq, if_true, ← ho]
    simp
  | .soft :: l, s, after, left, acc, out, ha, ho, hk => by
    simp only [steps1, step1, List.cons_append, List.nil_append, steps2, step2, strip]
    refine steps_flow l _ false left acc out ha ho ?_
    by_cases hp : s.prev.isSome = true
    · rw [if_pos hp]
      have h0 : out ≠ [] := by
        intro h; rw [hk.prev, if_pos h] at hp; simp at hp
      exact ⟨hk.prev, by simp, fun _ h => absurd h h0⟩
    · rw [if_neg hp]
      have h0 : out = [] := by
        by_cases h : out = []
        · exact h
        · rw [hk.prev, if_neg h] at hp; simp at hp
      exact ⟨hk.prev, fun h => ⟨(hk.keep h).1, .inl h0⟩, hk.start⟩
  | .line :: l, s, after, left, acc, out, ha, ho, hk => by
    have ih := steps_flow l ⟨none, false⟩ false true [] [] ha (by simp [dropLead, oneSpace, oneSpaceAfter])
      ⟨rfl, by simp, by simp⟩
    have e : trimmed (steps2 .stop (steps1 ⟨none, false⟩ l).1).2 [] = [] := by rw [trimmed]; split <;> rfl
    rw [e] at ih
    simp only [steps1, step1, List.cons_append, List.nil_append, steps2, step2, strip, tidy, joined]
    rw [ih, tidyText_eq, ← ho]
    simp [trimmed]
  | .solid :: l, s, after, left, acc, out, ha, ho, hk => by
    have ih := steps_flow l ⟨none, true⟩ false false [] [] ha (by simp [dropLead, oneSpace, oneSpaceAfter])
      ⟨rfl, by simp, by simp⟩
    have e : trimmed (steps2 .stop (steps1 ⟨none, true⟩ l).1).2 [] = [] := by rw [trimmed]; split <;> rfl
    rw [e] at ih
    simp only [steps1, step1, List.cons_append, List.nil_append, steps2, step2, strip, tidy, joined]
    rw [ih, tidyText_eq, ← ho]
    simp [trimmed]
  | .text d :: l, s, after, left, acc, out, ha, ho, hk => by
    obtain ⟨haf, ha⟩ := ha
    subst haf
    have hout := out_text ho hk d
    simp only [steps1, step1, strip, tidy]
    rw [firstText_out]
    generalize dropLead (decide ((s.prev = none ∨ s.prev = some true) ∧ s.keep = false)) (oneSpace d) = t at hout
    by_cases h0 : t = []
    · simp only [h0, if_true, List.flatMap_nil, List.nil_append]
      rw [h0, List.append_nil] at hout
      exact steps_flow l s true left (acc ++ d) out ha hout ⟨hk.prev, fun h => ⟨(hk.keep h).1, .inr rfl⟩, hk.start⟩
    · simp only [h0, if_false, List.flatMap_cons, List.flatMap_nil, List.append_nil, List.cons_append, List.nil_append, steps2]
      have hne : out ++ t ≠ [] := by simp [h0]
      have ih := steps_flow l { s with prev := some (t.getLast? = some SP) } true left (acc ++ d) (out ++ t) ha hout
        ⟨by rw [if_neg hne, ← getLast_suffix h0 ⟨out, rfl⟩], fun h => ⟨(hk.keep h).1, .inr rfl⟩, fun _ h => absurd h hne⟩
      obtain ⟨h1, h2⟩ := step2_text (steps2 .stop (steps1 { s with prev := some (t.getLast? = some SP) } l).1).2 t
        (steps2 .stop (steps1 { s with prev := some (t.getLast? = some SP) } l).1).1 out
      rw [h1]
      have e : trimmed .other out = out := rfl
      rw [e, h2, ← ih, trimmed_append h0]

theorem children_flow (f : DomFuncs) (cs : List Node) (h : ApartL f false cs) (hd : noDocL f cs) :
    joined [] (flowL (layout f) (children f cs)) = tidy true [] (flowL (layout f) cs) := by
  have hs : apartS false (stepsL f cs) := by
    have := (apart_steps f).2 cs false [] hd h fun _ => trivial
    simpa using this
  have := steps_flow (stepsL f cs) ⟨none, false⟩ false true [] [] hs (by simp [dropLead, oneSpace, oneSpaceAfter])
    ⟨rfl, by simp, by simp⟩
  rw [(first_steps f).2 cs _ hd] at this
  simp only at this
  rw [(second_steps f).2 _ _ ((first_noDoc f).2 cs _ hd)] at this
  simp only at this
  rw [(strip_steps f).2, (strip_steps f).2] at this
  rw [← this, children]
  congr 1
  rw [trimmed]; split <;> rfl

end Verif.Collapse
