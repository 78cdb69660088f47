import Verif.Proofs.DomBlocks
import Verif.Model.Render
import Verif.Spec.TableNodes
/-!
# The nodes of a table
-/
set_option linter.unusedSimpArgs false

namespace Verif.TableNodes
open Verif Verif.Spec Verif.Dom Verif.DomUtils Verif.Render

variable {E : Env} {link : Bool}

theorem below_eq (p : Path) (n : Node) : below p n = belowL p 0 n.children := by
  cases n <;> rfl

theorem nodes_eq (n : Node) : nodes n = n :: inside n := by
  cases n <;> rfl

theorem below_snd : (∀ n, ∀ p, (below p n).map (·.2) = inside n) ∧ (∀ ns, ∀ p i, (belowL p i ns).map (·.2) = nodesL ns) := by
  apply induct
  · intro d p; rfl
  · intro d p; rfl
  · intro d p; rfl
  · intro cs ih p; exact ih p 0
  · intro n a cs ih p; exact ih p 0
  · intro p i; rfl
  · intro n ns ih1 ih2 p i
    simp only [belowL, List.map_append, List.map_cons, nodesL, ih1, ih2, nodes_eq n]

/-- The paths of nodes, and that rendering at a path renders the node there. -/
theorem below_at :
    (∀ n, ∀ p, ∀ z ∈ below p n, ∃ j r, z.1 = p ++ j :: r ∧ ∀ st, ∃ st', renderBelow E link st (j :: r) n = renderNode E link st' z.2) ∧
    (∀ ns, ∀ p i, ∀ z ∈ belowL p i ns, ∃ k r, z.1 = p ++ (i + k) :: r ∧ ∀ st, ∃ st', renderAt E link st (k :: r) ns = renderNode E link st' z.2) := by
  apply induct
  · intro d p z hz; simp [below] at hz
  · intro d p z hz; simp [below] at hz
  · intro d p z hz; simp [below] at hz
  · intro cs ih p z hz
    obtain ⟨k, r, e, h⟩ := ih p 0 z hz
    refine ⟨k, r, by rw [e, Nat.zero_add], fun st => ?_⟩
    rw [renderBelow]; exact h st
  · intro n a cs ih p z hz
    obtain ⟨k, r, e, h⟩ := ih p 0 z hz
    refine ⟨k, r, by rw [e, Nat.zero_add], fun st => ?_⟩
    rw [renderBelow]; exact h _
  · intro p i z hz; simp [belowL] at hz
  · intro n ns ih1 ih2 p i z hz
    rw [belowL, List.mem_append, List.mem_cons] at hz
    rcases hz with (rfl | hz) | hz
    · exact ⟨0, [], rfl, fun st => ⟨st, by rw [renderAt]⟩⟩
    · obtain ⟨j, r, e, h⟩ := ih1 (p ++ [i]) z hz
      refine ⟨0, j :: r, by rw [e]; simp, fun st => ?_⟩
      rw [renderAt]; exact h st
    · obtain ⟨k, r, e, h⟩ := ih2 p (i + 1) z hz
      refine ⟨k + 1, r, by rw [e]; congr 2; omega, fun st => ?_⟩
      rw [renderAt]
      · exact h st

theorem render_at {cs : List Node} {z : Path × Node} (hz : z ∈ belowL [] 0 cs) (st : Bool) :
    ∃ st', renderAt E link st z.1 cs = renderNode E link st' z.2 := by
  obtain ⟨k, r, e, h⟩ := (below_at (E := E) (link := link)).2 cs [] 0 z hz
  rw [e, List.nil_append, Nat.zero_add]
  exact h st

theorem path_prefix :
    (∀ n p, ∀ z ∈ below p n, ∃ j r, z.1 = p ++ j :: r) ∧ (∀ ns p i, ∀ z ∈ belowL p i ns, ∃ k r, z.1 = p ++ (i + k) :: r) := by
  let E : Env := ⟨Config.newPlugin [], .smart, id, ⟨fun _ => false, fun _ => false⟩, fun _ => false, none, none⟩
  refine ⟨fun n p z hz => ?_, fun ns p i z hz => ?_⟩
  · obtain ⟨j, r, e, -⟩ := (below_at (E := E) (link := false)).1 n p z hz
    exact ⟨j, r, e⟩
  · obtain ⟨j, r, e, -⟩ := (below_at (E := E) (link := false)).2 ns p i z hz
    exact ⟨j, r, e⟩

theorem paths_nodup : (∀ n p, ((below p n).map (·.1)).Nodup) ∧ (∀ ns p i, ((belowL p i ns).map (·.1)).Nodup) := by
  apply induct
  · intro d p; exact List.nodup_nil
  · intro d p; exact List.nodup_nil
  · intro d p; exact List.nodup_nil
  · intro cs ih p; exact ih p 0
  · intro n a cs ih p; exact ih p 0
  · intro p i; exact List.nodup_nil
  · intro n ns ih1 ih2 p i
    rw [belowL, List.map_append, List.map_cons, List.nodup_append, List.nodup_cons]
    refine ⟨⟨?_, ih1 _⟩, ih2 _ _, ?_⟩
    · intro hm
      obtain ⟨z, hz, e⟩ := List.mem_map.1 hm
      obtain ⟨j, r, e2⟩ := path_prefix.1 n _ z hz
      rw [e2] at e
      have := congrArg List.length e
      simp at this
    · intro a ha b hb hab
      subst hab
      obtain ⟨z, hz, e⟩ := List.mem_map.1 hb
      obtain ⟨k, r, e2⟩ := path_prefix.2 ns p (i + 1) z hz
      rw [e2] at e
      have key : ∀ q, a = p ++ i :: q → False := by
        intro q hq
        rw [hq] at e
        have := List.append_cancel_left e
        injection this with h1 _
        omega
      rcases List.mem_cons.1 ha with rfl | ha
      · exact key [] rfl
      · obtain ⟨z', hz', e'⟩ := List.mem_map.1 ha
        obtain ⟨j, r', e3⟩ := path_prefix.1 n _ z' hz'
        refine key (j :: r') ?_
        rw [← e', e3]; simp

/-- The parent of a node is the node around everything, or comes before it. -/
theorem parent_before :
    (∀ n p A z B, below p n = A ++ z :: B → (z.1.dropLast = p ∧ z.2 ∈ n.children) ∨ ∃ y ∈ A, y.1 = z.1.dropLast ∧ z.2 ∈ y.2.children) ∧
    (∀ ns p i A z B, belowL p i ns = A ++ z :: B → (z.1.dropLast = p ∧ z.2 ∈ ns) ∨ ∃ y ∈ A, y.1 = z.1.dropLast ∧ z.2 ∈ y.2.children) := by
  apply induct
  · intro d p A z B h; simp [below] at h
  · intro d p A z B h; simp [below] at h
  · intro d p A z B h; simp [below] at h
  · intro cs ih p; exact ih p 0
  · intro n a cs ih p; exact ih p 0
  · intro p i A z B h; simp [belowL] at h
  · intro n ns ih1 ih2 p i A z B h
    rw [belowL] at h
    cases A with
    | nil =>
      simp only [List.nil_append, List.cons_append] at h
      injection h with h1 h2
      subst h1
      exact Or.inl ⟨by simp, by simp⟩
    | cons a A =>
      simp only [List.cons_append] at h
      injection h with h1 h2
      rw [List.append_eq_append_iff] at h2
      rcases h2 with ⟨C, e1, e2⟩ | ⟨C, e1, e2⟩
      · rcases ih2 p (i + 1) C z B e2 with h | ⟨y, hy, h⟩
        · exact Or.inl ⟨h.1, List.mem_cons_of_mem _ h.2⟩
        · refine Or.inr ⟨y, ?_, h⟩
          rw [e1]; simp [hy]
      · cases C with
        | nil =>
          simp only [List.nil_append] at e2
          rcases ih2 p (i + 1) [] z B e2.symm with h | ⟨y, hy, _⟩
          · exact Or.inl ⟨h.1, List.mem_cons_of_mem _ h.2⟩
          · simp at hy
        | cons c C =>
          simp only [List.cons_append] at e2
          injection e2 with e3 e4
          subst e3
          rcases ih1 (p ++ [i]) A z C e1 with h | ⟨y, hy, h⟩
          · refine Or.inr ⟨a, by simp, ?_, ?_⟩
            · rw [← h1]; exact h.1.symm
            · rw [← h1]; exact h.2
          · exact Or.inr ⟨y, List.mem_cons_of_mem _ hy, h⟩

/-- The nodes below a node come right after it. -/
theorem below_after :
    (∀ n p A z B, below p n = A ++ z :: B → ∃ D, B = below z.1 z.2 ++ D) ∧
    (∀ ns p i A z B, belowL p i ns = A ++ z :: B → ∃ D, B = below z.1 z.2 ++ D) := by
  apply induct
  · intro d p A z B h; simp [below] at h
  · intro d p A z B h; simp [below] at h
  · intro d p A z B h; simp [below] at h
  · intro cs ih p; exact ih p 0
  · intro n a cs ih p; exact ih p 0
  · intro p i A z B h; simp [belowL] at h
  · intro n ns ih1 ih2 p i A z B h
    rw [belowL] at h
    cases A with
    | nil =>
      simp only [List.nil_append, List.cons_append] at h
      injection h with h1 h2
      subst h1
      exact ⟨_, h2.symm⟩
    | cons a A =>
      simp only [List.cons_append] at h
      injection h with h1 h2
      rw [List.append_eq_append_iff] at h2
      rcases h2 with ⟨C, e1, e2⟩ | ⟨C, e1, e2⟩
      · exact ih2 p (i + 1) C z B e2
      · cases C with
        | nil =>
          simp only [List.nil_append] at e2
          exact ih2 p (i + 1) [] z B e2.symm
        | cons c C =>
          simp only [List.cons_append] at e2
          injection e2 with e3 e4
          subst e3
          obtain ⟨D, hD⟩ := ih1 (p ++ [i]) A z C e1
          exact ⟨D ++ belowL p (i + 1) ns, by rw [e4, hD]; simp⟩

theorem find_split {α : Type} {P : α → Bool} : ∀ {l : List α} {z : α}, l.find? P = some z → ∃ A B, l = A ++ z :: B ∧ P z = true ∧ ∀ a ∈ A, P a = false
  | [], z, h => by simp at h
  | a :: l, z, h => by
    rw [List.find?_cons] at h
    cases e : P a with
    | true => rw [e] at h; simp only [Option.some.injEq] at h; subst h; exact ⟨[], l, rfl, e, by simp⟩
    | false =>
      rw [e] at h
      obtain ⟨A, B, h1, h2, h3⟩ := find_split h
      refine ⟨a :: A, B, by rw [h1]; rfl, h2, ?_⟩
      intro x hx
      rcases List.mem_cons.1 hx with rfl | hx
      · exact e
      · exact h3 x hx

theorem find_nodup {l : List (Path × Node)} (h : (l.map (·.1)).Nodup) {z : Path × Node} (hz : z ∈ l) : l.find? (fun y => y.1 = z.1) = some z := by
  induction l with
  | nil => simp at hz
  | cons a l ih =>
    rw [List.map_cons, List.nodup_cons] at h
    rw [List.find?_cons]
    rcases List.mem_cons.1 hz with rfl | hz
    · simp
    · have : a.1 ≠ z.1 := fun e => h.1 (e ▸ List.mem_map_of_mem hz)
      simp only [this, decide_false]
      exact ih h.2 hz

/-- Taking one element to the front. -/
theorem filter_perm {l : List (Path × Node)} (h : (l.map (·.1)).Nodup) {z : Path × Node} (hz : z ∈ l) :
    (z :: l.filter fun y => y.1 ≠ z.1).Perm l := by
  induction l with
  | nil => simp at hz
  | cons a l ih =>
    rw [List.map_cons, List.nodup_cons] at h
    rcases List.mem_cons.1 hz with rfl | hz
    · rw [List.filter_cons, if_neg (by simp), List.filter_eq_self.2]
      intro y hy
      have : y.1 ≠ z.1 := fun e => h.1 (e ▸ List.mem_map_of_mem hy)
      simpa using this
    · have : a.1 ≠ z.1 := fun e => h.1 (e ▸ List.mem_map_of_mem hz)
      rw [List.filter_cons, if_pos (by simpa using this)]
      exact (List.Perm.swap _ _ _).trans ((ih h.2 hz).cons a)

/-- The rows of a table with their paths. -/
def rowsAt (t : Node) : List (Path × Node) := (below [] t).filter fun y => y.2.name = b!"tr"

theorem rowsAt_snd (t : Node) : (rowsAt t).map (·.2) = rowsOf t := by
  rw [rowsAt, rowsOf, ← below_snd.1 t [], List.filter_map]; rfl

theorem cellsOf_snd (r : Path × Node) : (cellsOf r).map (·.2) = cellsIn r.2 := by
  rw [cellsOf, cellsIn, ← below_snd.1 r.2 r.1, List.filter_map]; rfl

theorem rowsAt_nodup (t : Node) : ((rowsAt t).map (·.1)).Nodup :=
  ((List.filter_sublist (l := below [] t)).map (·.1)).nodup (paths_nodup.1 t [])

theorem selectRows_eq {t : Node} (ht : t.name ≠ b!"tr") (h : Option (Path × Node)) :
    selectRows t h = (rowsAt t).filter fun y => h.map (·.1) ≠ some y.1 := by
  rw [selectRows, List.filter_cons, if_neg (by simp [ht]), rowsAt, List.filter_filter]
  congr 1
  funext y
  simp [Bool.and_comm]

/-- The header is a row of the table; if nothing comes before it, it is the first one. -/
theorem header_row {t : Node} (hh : HeaderCellsInRows t) (ht : t.name ≠ b!"tr") {h : Path × Node} (e : selectHeader t = some h) : h ∈ rowsAt t := by
  rw [selectHeader] at e
  split at e
  · rename_i tr e1
    simp only [Option.some.injEq] at e
    subst e
    rw [Option.bind_eq_some_iff] at e1
    obtain ⟨thead, f1, f2⟩ := e1
    obtain ⟨A, B, h1, -, -⟩ := find_split f1
    obtain ⟨A', B', h2, h3, -⟩ := find_split f2
    obtain ⟨D, hD⟩ := below_after.1 t [] A thead B h1
    rw [rowsAt, List.mem_filter]
    refine ⟨?_, h3⟩
    simp only at h1
    rw [h1, hD, h2]; simp
  · rw [Option.bind_eq_some_iff] at e
    obtain ⟨th, f1, f2⟩ := e
    obtain ⟨A, B, h1, h2, -⟩ := find_split f1
    simp only [decide_eq_true_eq] at h2
    obtain ⟨A', B', h3, h4, -⟩ := find_split f2
    have hn := paths_nodup.1 t []
    rcases parent_before.1 t [] A th B h1 with ⟨g1, g2⟩ | ⟨y, hy, g1, g2⟩
    · have := hh t (by rw [nodes_eq]; simp) ⟨th.2, g2, h2⟩
      exact absurd this ht
    · have hy' : y ∈ below [] t := by simp only at h1; rw [h1]; simp [hy]
      have htr : y.2.name = b!"tr" := by
        refine hh y.2 ?_ ⟨th.2, g2, h2⟩
        rw [nodes_eq, ← below_snd.1 t []]
        exact List.mem_cons_of_mem _ (List.mem_map_of_mem hy')
      have hyp : y.1 ≠ [] := by
        obtain ⟨j, r, e⟩ := path_prefix.1 t [] y hy'
        rw [e]; simp
      have hf : (([], t) :: below [] t).find? (fun z => z.1 = th.1.dropLast) = some y := by
        rw [← g1, List.find?_cons]
        have : ¬ (([] : Path) = y.1) := fun e => hyp e.symm
        simp only [this, decide_false]
        exact find_nodup hn hy'
      rw [hf] at f2
      simp only [Option.some.injEq] at f2
      subst f2
      rw [rowsAt, List.mem_filter]
      exact ⟨hy', by simpa using htr⟩

/-- Every row is used once, if header cells are in rows. -/
theorem rows_perm {t : Node} (hh : HeaderCellsInRows t) (ht : t.name ≠ b!"tr") :
    ((selectHeader t).toList ++ selectRows t (selectHeader t)).Perm (rowsAt t) := by
  rw [selectRows_eq ht]
  cases e : selectHeader t with
  | none =>
    rw [List.filter_eq_self.2 (by simp)]
    exact List.Perm.refl _
  | some h =>
    have hm := header_row hh ht e
    have : (rowsAt t).filter (fun y => (some h).map (·.1) ≠ some y.1) = (rowsAt t).filter fun y => y.1 ≠ h.1 := by
      congr 1; funext y
      simp [eq_comm]
    rw [this]
    exact filter_perm (rowsAt_nodup t) hm

theorem filter_first {l : List (Path × Node)} (h : (l.map (·.1)).Nodup) {z : Path × Node} {l' : List (Path × Node)} (hz : l = z :: l') :
    (l.filter fun y => y.1 ≠ z.1) = l' := by
  subst hz
  rw [List.map_cons, List.nodup_cons] at h
  rw [List.filter_cons, if_neg (by simp), List.filter_eq_self.2]
  intro y hy
  have : y.1 ≠ z.1 := fun e => h.1 (e ▸ List.mem_map_of_mem hy)
  simpa using this

theorem inside_split {t : Node} {A : List (Path × Node)} {z : Path × Node} {B : List (Path × Node)} (h : below [] t = A ++ z :: B) :
    inside t = A.map (·.2) ++ z.2 :: B.map (·.2) := by
  rw [← below_snd.1 t [], h]; simp

theorem no_snd {A : List (Path × Node)} {name : Bytes} (h : ∀ a ∈ A, decide (a.2.name = name) = false) : ∀ a ∈ A.map (·.2), a.name ≠ name := by
  intro a ha
  obtain ⟨z, hz, rfl⟩ := List.mem_map.1 ha
  simpa using h z hz

/-- If nothing comes before the header, it is the first row. -/
theorem header_first {t : Node} (hr : TopDown t) (ht : t.name ≠ b!"tr") {h : Path × Node} (e : selectHeader t = some h) :
    ∃ l, rowsAt t = h :: l := by
  rw [selectHeader] at e
  split at e
  · rename_i tr e1
    simp only [Option.some.injEq] at e
    subst e
    rw [Option.bind_eq_some_iff] at e1
    obtain ⟨thead, f1, f2⟩ := e1
    obtain ⟨A, B, h1, h1', h1''⟩ := find_split f1
    obtain ⟨A', B', h2, h3, h4⟩ := find_split f2
    obtain ⟨D, hD⟩ := below_after.1 t [] A thead B h1
    simp only [decide_eq_true_eq] at h1'
    have hA := hr.thead _ _ _ (inside_split h1) h1' (no_snd h1'')
    have e1 : A.filter (fun y => decide (y.2.name = b!"tr")) = [] := by
      rw [List.filter_eq_nil_iff]
      intro a ha
      simpa using hA a.2 (List.mem_map_of_mem ha)
    have e2 : A'.filter (fun y => decide (y.2.name = b!"tr")) = [] := by
      rw [List.filter_eq_nil_iff]
      intro a ha
      simpa using h4 a ha
    simp only at h1
    rw [rowsAt, h1, hD, h2, List.filter_append, e1, List.nil_append, List.filter_cons, if_neg (by rw [h1']; decide),
      List.filter_append, List.filter_append, e2, List.nil_append, List.filter_cons, if_pos h3]
    exact ⟨_, rfl⟩
  · rename_i e1
    have hrow : h ∈ rowsAt t := header_row hr.headers ht (by rw [selectHeader, e1]; exact e)
    rw [Option.bind_eq_some_iff] at e
    obtain ⟨th, f1, f2⟩ := e
    obtain ⟨A, B, h1, h2, h2'⟩ := find_split f1
    simp only [decide_eq_true_eq] at h2
    rcases hr.th with ⟨A1, x, B1, g1, g2, g3, g4⟩ | g
    · exfalso
      have hf : ((below [] t).find? fun y => y.2.name = b!"thead").map (·.2) = some x := by
        have := List.find?_map (f := fun y : Path × Node => y.2) (p := fun n : Node => decide (n.name = b!"thead")) (l := below [] t)
        rw [below_snd.1 t [], g1, List.find?_append, List.find?_eq_none.2 (by simpa using g3), List.find?_cons] at this
        simp only [g2, decide_true, Option.none_or] at this
        exact this.symm
      rw [Option.map_eq_some_iff] at hf
      obtain ⟨z, hz, rfl⟩ := hf
      rw [findFirst, hz, Option.bind_some, findFirst, List.find?_eq_none] at e1
      apply g4
      rw [rowsOf, ← below_snd.1 z.2 z.1, List.filter_eq_nil_iff]
      intro a ha
      obtain ⟨w, hw, rfl⟩ := List.mem_map.1 ha
      exact e1 w hw
    · have hlen := g _ _ _ (inside_split h1) h2 (no_snd h2')
      rcases parent_before.1 t [] A th B h1 with ⟨g1, g2⟩ | ⟨y, hy, g1, g2⟩
      · exact absurd (hr.headers t (by rw [nodes_eq]; simp) ⟨th.2, g2, h2⟩) ht
      · obtain ⟨A', B', h3, h4, -⟩ := find_split f2
        simp only [decide_eq_true_eq] at h4
        have hn := paths_nodup.1 t []
        have hy' : y ∈ below [] t := by simp only at h1; rw [h1]; simp [hy]
        have hh' : h ∈ below [] t := (List.mem_filter.1 hrow).1
        have hyh : y = h := by
          have a1 := find_nodup hn hy'
          have a2 := find_nodup hn hh'
          rw [h4, ← g1, a1] at a2
          simpa using a2
        subst hyh
        have htr : y.2.name = b!"tr" := by simpa using (List.mem_filter.1 hrow).2
        have hym : y ∈ A.filter fun y => decide (y.2.name = b!"tr") := List.mem_filter.2 ⟨hy, by simpa using htr⟩
        have hlen' : (A.filter fun y => decide (y.2.name = b!"tr")).length ≤ 1 := by
          rw [List.filter_map, List.length_map] at hlen
          exact hlen
        have hone : A.filter (fun y => decide (y.2.name = b!"tr")) = [y] := by
          generalize A.filter (fun y => decide (y.2.name = b!"tr")) = L at hym hlen'
          match L, hym, hlen' with
          | [w], hm, _ => simp at hm; rw [hm]
          | _ :: _ :: _, _, hl => simp at hl
        simp only at h1
        rw [rowsAt, h1, List.filter_append, hone]
        exact ⟨_, rfl⟩

theorem rows_topDown {t : Node} (hr : TopDown t) (ht : t.name ≠ b!"tr") :
    (selectHeader t).toList ++ selectRows t (selectHeader t) = rowsAt t := by
  rw [selectRows_eq ht]
  cases e : selectHeader t with
  | none =>
    rw [List.filter_eq_self.2 (by simp)]
    rfl
  | some h =>
    obtain ⟨l, hl⟩ := header_first hr ht e
    have : (rowsAt t).filter (fun y => (some h).map (·.1) ≠ some y.1) = (rowsAt t).filter fun y => y.1 ≠ h.1 := by
      congr 1; funext y
      simp [eq_comm]
    rw [this, filter_first (rowsAt_nodup t) hl, hl]
    rfl

theorem captionOf_snd (t : Node) : (findFirst b!"caption" ([], t)).map (·.2) = captionOf t := by
  rw [captionOf, ← below_snd.1 t [], List.find?_map]
  rfl

end Verif.TableNodes
