import Verif.Model.Collapse
import Verif.Spec.Collapse
import Verif.Proofs.Visible
import Verif.Proofs.DomText
/-!
# Lemmas about collapsing white space
-/
set_option linter.unusedSimpArgs false

namespace Verif.Collapse
open Verif Verif.Spec Verif.Dom

/-! ## Strings -/

theorem isWs_eq (b : UInt8) : isWs b = isHtmlSpace b := by
  revert b; exact forall_u8 (by decide +kernel)

/-- Is the end of the string in a run? -/
def inRun (p : Bool) (s : Bytes) : Bool := s.foldl (fun _ b => isHtmlSpace b) p

theorem oneSpaceAfter_append (a b : Bytes) : ∀ p, oneSpaceAfter p (a ++ b) = oneSpaceAfter p a ++ oneSpaceAfter (inRun p a) b := by
  induction a with
  | nil => intro p; rfl
  | cons x a ih =>
    intro p
    simp only [List.cons_append, oneSpaceAfter, inRun, List.foldl_cons]
    by_cases hx : isHtmlSpace x = true
    · simp only [hx, if_true]
      cases p
      · simp only [Bool.false_eq_true, if_false, List.cons_append]
        rw [ih true]; rfl
      · simp only [if_true]
        rw [ih true]; rfl
    · simp only [hx, Bool.false_eq_true, if_false, List.cons_append]
      rw [ih false]; simp only [Bool.not_eq_true] at hx; rw [inRun]

theorem oneSpaceAfter_true (s : Bytes) : oneSpaceAfter true s = if (oneSpaceAfter false s).head? = some 32 then (oneSpaceAfter false s).tail else oneSpaceAfter false s := by
  cases s with
  | nil => rfl
  | cons b s =>
    simp only [oneSpaceAfter]
    by_cases hb : isHtmlSpace b = true
    · simp [hb]
    · have : b ≠ 32 := by rintro rfl; simp [isHtmlSpace] at hb
      simp [hb, this]

theorem replaceGo_eq (source : Bytes) : ∀ (rest : Bytes) (ret : Option Bytes) (normal run : Bytes),
    (ret = none → source = normal ++ run ++ rest) → (∀ b ∈ run, isHtmlSpace b = true) →
    replaceGo source ret normal run rest =
      ret.getD [] ++ normal ++ (if run = [] then oneSpaceAfter false rest else 32 :: oneSpaceAfter true rest) := by
  intro rest
  induction rest with
  | nil =>
    intro ret normal run h _
    rw [replaceGo]
    by_cases hr : run = []
    · subst hr
      cases ret with
      | none => simpa [oneSpaceAfter] using h rfl
      | some r => simp [oneSpaceAfter]
    · simp only [hr, false_and, if_false]
      cases ret with
      | none =>
        by_cases h1 : run = [SP]
        · subst h1
          simpa [oneSpaceAfter] using h rfl
        · simp [h1, oneSpaceAfter]
      | some r => simp [oneSpaceAfter]
  | cons b rest ih =>
    intro ret normal run h hw
    rw [replaceGo, isWs_eq]
    by_cases hb : isHtmlSpace b = true
    · rw [if_pos hb, ih ret normal (run ++ [b]) (by intro hn; rw [h hn]; simp) (by
        intro x hx; rcases List.mem_append.1 hx with hx | hx
        · exact hw x hx
        · rw [List.mem_singleton.1 hx]; exact hb)]
      simp only [oneSpaceAfter, hb, if_true]
      by_cases hr : run = []
      · simp [hr]
      · simp [hr]
    · rw [if_neg hb]
      by_cases hr : run = []
      · rw [if_pos hr, ih ret (normal ++ [b]) [] (by intro hn; rw [h hn, hr]; simp) (by simp)]
        simp [hr, oneSpaceAfter, hb]
      · rw [if_neg hr]
        by_cases h1 : run = [SP]
        · rw [if_pos h1, ih ret (normal ++ run ++ [b]) [] (by intro hn; rw [h hn]; simp) (by simp)]
          simp [h1, oneSpaceAfter, hb]
        · rw [if_neg h1, ih (some (ret.getD [] ++ normal ++ [SP])) [b] [] (by simp) (by simp)]
          simp [hr, oneSpaceAfter, hb]

theorem replaceWs_eq (s : Bytes) : replaceWs s = oneSpace s := by
  rw [replaceWs]
  split
  · rename_i h; rw [h]; rfl
  · rw [replaceGo_eq s s none [] [] (by simp) (by simp)]; simp [oneSpace]

/-- No white space but single spaces. -/
def Tidy : Bool → Bytes → Prop
  | _, [] => True
  | p, b :: s => (isHtmlSpace b = true → b = 32 ∧ p = false) ∧ Tidy (isHtmlSpace b) s

theorem oneSpaceAfter_tidy (s : Bytes) : ∀ p, Tidy p (oneSpaceAfter p s) := by
  induction s with
  | nil => intro p; trivial
  | cons b s ih =>
    intro p
    simp only [oneSpaceAfter]
    by_cases hb : isHtmlSpace b = true
    · simp only [hb, if_true]
      cases p
      · simp only [Bool.false_eq_true, if_false]
        refine ⟨fun _ => ⟨rfl, rfl⟩, ?_⟩
        exact ih true
      · simp only [if_true]; exact ih true
    · simp only [hb, Bool.false_eq_true, if_false]
      refine ⟨fun h => absurd h hb, ?_⟩
      simp only [Bool.not_eq_true] at hb
      rw [hb]; exact ih false

theorem tidy_oneSpaceAfter (s : Bytes) : ∀ p, Tidy p s → oneSpaceAfter p s = s := by
  induction s with
  | nil => intro p _; rfl
  | cons b s ih =>
    intro p h
    simp only [oneSpaceAfter]
    obtain ⟨h1, h2⟩ := h
    by_cases hb : isHtmlSpace b = true
    · obtain ⟨rfl, rfl⟩ := h1 hb
      rw [hb] at h2
      simp [hb, ih true h2]
    · simp only [Bool.not_eq_true] at hb
      rw [hb] at h2
      simp [hb, ih false h2]

theorem Tidy.weaken {s : Bytes} (h : Tidy true s) : Tidy false s := by
  cases s with
  | nil => trivial
  | cons b s => exact ⟨fun hb => ⟨(h.1 hb).1, rfl⟩, h.2⟩

theorem Tidy.tail {s : Bytes} {p : Bool} (h : Tidy p s) : Tidy false s.tail := by
  cases s with
  | nil => trivial
  | cons b s =>
    cases hb : isHtmlSpace b
    · have := h.2; rw [hb] at this; exact this
    · have := h.2; rw [hb] at this; exact this.weaken

theorem Tidy.append_left {a b : Bytes} : ∀ {p : Bool}, Tidy p (a ++ b) → Tidy p a := by
  induction a with
  | nil => intro p _; trivial
  | cons x a ih => intro p h; exact ⟨h.1, ih h.2⟩

theorem Tidy.dropLast {s : Bytes} {p : Bool} (h : Tidy p s) : Tidy p s.dropLast := by
  rw [List.dropLast_eq_take] 
  exact Tidy.append_left (b := s.drop (s.length - 1)) (by rw [List.take_append_drop]; exact h)

/-- A tidy string without its last space does not end with a space. -/
theorem Tidy.trimSuffix_last {s : Bytes} {p : Bool} (h : Tidy p s) : (trimSuffix s).getLast? ≠ some SP := by
  rw [trimSuffix]
  split
  · rename_i hl
    intro hl2
    have hs : s = s.dropLast ++ [SP] := by
      rw [List.getLast?_eq_some_iff] at hl
      obtain ⟨ys, rfl⟩ := hl
      simp
    have hs2 : s.dropLast = s.dropLast.dropLast ++ [SP] := by
      rw [List.getLast?_eq_some_iff] at hl2
      obtain ⟨ys, h⟩ := hl2
      rw [h]; simp
    rw [hs2] at hs
    rw [hs] at h
    have : ∀ (a : Bytes) (p : Bool), ¬ Tidy p (a ++ [SP] ++ [SP]) := by
      intro a
      induction a with
      | nil => intro p h; have := (h.2.1 (by decide)).2; revert this; decide
      | cons x a ih => intro p h; exact ih _ h.2
    exact this _ _ h
  · assumption

theorem trimSuffix_tidy {s : Bytes} {p : Bool} (h : Tidy p s) : Tidy p (trimSuffix s) := by
  rw [trimSuffix]; split
  · exact h.dropLast
  · exact h

theorem trimSuffix_id {s : Bytes} (h : s.getLast? ≠ some SP) : trimSuffix s = s := by rw [trimSuffix, if_neg h]

theorem oneSpaceAfter_plain {a : Bytes} (h : ∀ b ∈ a, isHtmlSpace b = false) : ∀ p, oneSpaceAfter p a = a := by
  induction a with
  | nil => intro p; rfl
  | cons x a ih =>
    intro p
    simp [oneSpaceAfter, h x (by simp), ih fun b hb => h b (by simp [hb])]

theorem htmlSpace_white {b : UInt8} (h : isHtmlSpace b = true) : [b] ∈ whitespace ∧ isCont b = false := by
  simp only [isHtmlSpace, Bool.or_eq_true, decide_eq_true_eq] at h
  rcases h with ((rfl | rfl) | rfl) | rfl <;> decide

theorem visible_space {b : UInt8} (h : isHtmlSpace b = true) (a c : Bytes) : visible (a ++ b :: c) = visible a ++ visible c := by
  obtain ⟨h1, h2⟩ := htmlSpace_white h
  rw [visible_append a (startsCharacter_cons h2), show b :: c = [b] ++ c from rfl, visible_word h1]

theorem visible_oneSpaceAfter (s : Bytes) : ∀ p, visible (oneSpaceAfter p s) = visible s := by
  induction hn : s.length using Nat.strongRecOn generalizing s with
  | ind n ih =>
    intro p
    by_cases h : ∀ b ∈ s, isHtmlSpace b = false
    · rw [oneSpaceAfter_plain h]
    · have : ∃ a b c, s = a ++ b :: c ∧ (∀ x ∈ a, isHtmlSpace x = false) ∧ isHtmlSpace b = true := by
        clear ih hn
        induction s with
        | nil => simp at h
        | cons x s ih =>
          by_cases hx : isHtmlSpace x = true
          · exact ⟨[], x, s, rfl, by simp, hx⟩
          · simp only [Bool.not_eq_true] at hx
            obtain ⟨a, b, c, rfl, h1, h2⟩ := ih (by
              intro hh; apply h; intro b hb; rcases List.mem_cons.1 hb with rfl | hb
              · exact hx
              · exact hh b hb)
            refine ⟨x :: a, b, c, rfl, ?_, h2⟩
            intro y hy; rcases List.mem_cons.1 hy with rfl | hy
            · exact hx
            · exact h1 y hy
      obtain ⟨a, b, c, rfl, h1, h2⟩ := this
      have ihc := ih c.length (by rw [← hn]; simp; omega) c rfl true
      rw [visible_space h2, oneSpaceAfter_append, oneSpaceAfter_plain h1]
      simp only [oneSpaceAfter, h2, if_true]
      cases hr : inRun p a
      · simp only [Bool.false_eq_true, if_false]
        rw [visible_space (b := 32) (by decide), ihc]
      · simp only [if_true]
        have : a = [] := by
          cases List.eq_nil_or_concat a with
          | inl h => exact h
          | inr h =>
            obtain ⟨l, x, rfl⟩ := h
            rw [inRun, List.concat_eq_append, List.foldl_append, List.foldl_cons, List.foldl_nil, h1 x (by simp)] at hr
            exact absurd hr (by simp)
        subst this
        simpa [visible_nil] using ihc

theorem visible_oneSpace (s : Bytes) : visible (oneSpace s) = visible s := visible_oneSpaceAfter s false

theorem visible_tail {s : Bytes} (h : s.head? = some SP) : visible s.tail = visible s := by
  cases s with
  | nil => rfl
  | cons b s =>
    simp at h
    subst h
    exact (visible_word (w := [32]) (by decide) s).symm

theorem visible_trimSuffix (s : Bytes) : visible (trimSuffix s) = visible s := by
  rw [trimSuffix]
  split
  · rename_i h
    rw [List.getLast?_eq_some_iff] at h
    obtain ⟨ys, rfl⟩ := h
    rw [List.dropLast_concat, visible_space (by decide), visible_nil, List.append_nil]
  · rfl

end Verif.Collapse
