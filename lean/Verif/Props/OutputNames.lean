import Verif.Props.Cli
import Verif.Spec.Pointwise
/-!
# Property C60: the names of the files in the output directory
-/

namespace Verif.Props
open Verif Verif.Cli

/-- The last component of a path: what is between its last slashes. -/
def LastComponent (path name : Bytes) : Prop :=
  ∃ dir slashes, path = dir ++ name ++ slashes ∧ (dir = [] ∨ dir.getLast? = some 47) ∧ name ≠ [] ∧ 47 ∉ name ∧ ∀ b ∈ slashes, b = 47

/-- A file name without its extension: what is before the last dot, or the whole name if there is no dot. -/
def WithoutExtension (name stem : Bytes) : Prop :=
  (46 ∉ name ∧ stem = name) ∨ ∃ ext, 46 ∉ ext ∧ name = stem ++ 46 :: ext

theorem base_of {path name : Bytes} (h : LastComponent path name) : base path = name := by
  obtain ⟨dir, slashes, rfl, hd, hne, hn, hs⟩ := h
  have h1 : (dir ++ name ++ slashes).reverse.dropWhile (· == 47) = name.reverse ++ dir.reverse := by
    rw [List.reverse_append, List.dropWhile_append_of_pos (by simpa using hs), List.reverse_append]
    cases hr : name.reverse with
    | nil => simp at hr; exact absurd hr hne
    | cons b r =>
      have : b ∈ name := by rw [← List.mem_reverse, hr]; simp
      have hb : b ≠ 47 := fun e => hn (e ▸ this)
      rw [List.cons_append, List.dropWhile_cons_of_neg (by simpa using hb)]
  rw [base, if_neg (by simp [hne])]
  simp only [h1]
  rw [if_neg (by simp [hne]), List.reverse_reverse]
  have h2 : (name.reverse ++ dir.reverse).takeWhile (· != 47) = name.reverse := by
    rw [List.takeWhile_append_of_pos (by
      intro b hb
      have : b ≠ 47 := fun e => hn (by rw [← e, ← List.mem_reverse]; exact hb)
      simpa using this)]
    have : dir.reverse.takeWhile (· != 47) = [] := by
      rcases hd with rfl | hd
      · rfl
      · rw [← List.head?_reverse] at hd
        cases hr : dir.reverse with
        | nil => rfl
        | cons b r =>
          rw [hr] at hd
          simp at hd
          rw [hd]
          rfl
    rw [this, List.append_nil]
  rw [h2, List.reverse_reverse]

theorem withoutExt_of {name stem : Bytes} (h : WithoutExtension name stem) : withoutExt name = stem := by
  rcases h with ⟨h, rfl⟩ | ⟨ext, h, rfl⟩
  · rw [withoutExt, if_neg (by simpa using h)]
  · rw [withoutExt, if_pos (by simp), List.reverse_append, List.reverse_cons, List.append_assoc,
      List.dropWhile_append_of_pos (by
        intro b hb
        have : b ≠ 46 := fun e => h (by rw [← e, ← List.mem_reverse]; exact hb)
        simpa using this)]
    simp

/-- `stem` is the name of the file without its extension. -/
def HasStem (path stem : Bytes) : Prop := ∃ name, LastComponent path name ∧ WithoutExtension name stem

theorem stem_of {path stem : Bytes} (h : HasStem path stem) : withoutExt (base path) = stem := by
  obtain ⟨name, h1, h2⟩ := h
  rw [base_of h1, withoutExt_of h2]

theorem outputNamesGo_spec (env : Env) (gb : Bytes) : ∀ (paths stems names seen : List Bytes), Spec.Pointwise HasStem paths stems →
    outputNamesGo env gb seen paths = some names →
    ∀ i p st n, paths[i]? = some p → stems[i]? = some st → names[i]? = some n →
      (st ∉ seen → st ∉ stems.take i → n = st ++ b!".md") ∧
      (st ∈ seen ∨ st ∈ stems.take i → ∃ r, env.rel gb p = some r ∧ n = st ++ b!"." ++ env.hash10 r ++ b!".md") := by
  intro paths
  induction paths with
  | nil => intro stems names seen _ _ i p st n h; simp at h
  | cons q paths ih =>
    intro stems names seen hp h i p st n h1 h2 h3
    cases hp with
    | cons hq hp =>
      rename_i qs stems
      have e := stem_of hq
      simp only [outputNamesGo, e] at h
      by_cases hc : seen.count qs = 0
      · rw [if_pos hc] at h
        rw [Option.map_eq_some_iff] at h
        obtain ⟨ns, h, rfl⟩ := h
        have hns : qs ∉ seen := List.count_eq_zero.1 hc
        cases i with
        | zero =>
          simp at h1 h2 h3
          subst h1 h2 h3
          exact ⟨fun _ _ => rfl, fun hm => by simp [hns] at hm⟩
        | succ i =>
          simp only [List.getElem?_cons_succ] at h1 h2 h3
          obtain ⟨g1, g2⟩ := ih stems ns _ hp h i p st n h1 h2 h3
          simp only [List.mem_cons, List.take_succ_cons, not_or] at g1 g2 ⊢
          refine ⟨fun a b => g1 ⟨b.1, a⟩ b.2, fun hm => g2 ?_⟩
          rcases hm with hm | hm | hm
          · exact .inl (.inr hm)
          · exact .inl (.inl hm)
          · exact .inr hm
      · rw [if_neg hc, Option.bind_eq_some_iff] at h
        obtain ⟨r, hr, h⟩ := h
        rw [Option.map_eq_some_iff] at h
        obtain ⟨ns, h, rfl⟩ := h
        have hns : qs ∈ seen := by
          have : 0 < seen.count qs := by omega
          exact List.count_pos_iff.1 this
        cases i with
        | zero =>
          simp at h1 h2 h3
          subst h1 h2 h3
          exact ⟨fun hm => absurd hns hm, fun _ => ⟨r, hr, by simp⟩⟩
        | succ i =>
          simp only [List.getElem?_cons_succ] at h1 h2 h3
          obtain ⟨g1, g2⟩ := ih stems ns _ hp h i p st n h1 h2 h3
          simp only [List.mem_cons, List.take_succ_cons, not_or] at g1 g2 ⊢
          refine ⟨fun a b => g1 ⟨b.1, a⟩ b.2, fun hm => g2 ?_⟩
          rcases hm with hm | hm | hm
          · exact .inl (.inr hm)
          · exact .inl (.inl hm)
          · exact .inr hm

/-- **C60**: the result of an input goes to the file that is named like the input, with the extension `.md`; if an input before has the same
name (without extension), the hash of its path is put in between. -/
theorem c60_names (env : Env) (pattern : Bytes) (paths stems names : List Bytes) (hp : Spec.Pointwise HasStem paths stems)
    (h : outputNames env pattern paths = some names) (i : Nat) (p st n : Bytes) (h1 : paths[i]? = some p) (h2 : stems[i]? = some st)
    (h3 : names[i]? = some n) :
    (st ∉ stems.take i → n = st ++ b!".md") ∧
    (st ∈ stems.take i → ∃ r, env.rel (env.globBase pattern) p = some r ∧ n = st ++ b!"." ++ env.hash10 r ++ b!".md") := by
  obtain ⟨g1, g2⟩ := outputNamesGo_spec env _ paths stems names [] hp h i p st n h1 h2 h3
  exact ⟨g1 (by simp), fun hm => g2 (.inr hm)⟩

/-- `/x/a.tar.html` and `a` -/
example : HasStem b!"/x/a.tar.html" b!"a.tar" ∧ HasStem b!"a" b!"a" :=
  ⟨⟨b!"a.tar.html", ⟨b!"/x/", [], by decide, .inr (by decide), by decide, by decide, by simp⟩, .inr ⟨b!"html", by decide, by decide⟩⟩,
   ⟨b!"a", ⟨[], [], by decide, .inl rfl, by decide, by decide, by simp⟩, .inl ⟨by decide, rfl⟩⟩⟩

end Verif.Props
