import Verif.Proofs.AlikeRender
import Verif.Spec.Alike
/-!
# The canonical form of a document: one name for each meaning, only the attributes that are used
-/

namespace Verif.Alike
open Verif Verif.DomUtils Verif.Render Verif.Spec

/-! ## Attributes -/

theorem look_valueOf (key : Bytes) : ∀ a, look a key = valueOf key a
  | [] => rfl
  | (k, v) :: a => by
    have ih := look_valueOf key a
    rw [valueOf]
    rw [look] at ih ⊢
    by_cases hk : k = key
    · simp [hk]
    · simp [hk, ih]

/-- Only these attributes, in this order. -/
def keepOnly (keys : List Bytes) (a : List (Bytes × Bytes)) : List (Bytes × Bytes) := keys.filterMap fun k => (valueOf k a).map (k, ·)

theorem valueOf_keepOnly (key : Bytes) (a : List (Bytes × Bytes)) : ∀ keys, valueOf key (keepOnly keys a) = if key ∈ keys then valueOf key a else none
  | [] => rfl
  | k :: keys => by
    have ih := valueOf_keepOnly key a keys
    rw [keepOnly] at ih ⊢
    rw [List.filterMap_cons]
    cases hv : valueOf k a with
    | none =>
      simp only [Option.map_none, ih, List.mem_cons]
      by_cases hk : key = k
      · simp [hk, hv]
      · simp [hk]
    | some v =>
      simp only [Option.map_some, valueOf, ih, List.mem_cons]
      by_cases hk : k = key
      · simp [hk, ← hv]
      · have : ¬key = k := fun e => hk e.symm
        simp [hk, this]

theorem keepOnly_congr {keys : List Bytes} {a b : List (Bytes × Bytes)} (h : ∀ key ∈ keys, valueOf key a = valueOf key b) :
    keepOnly keys a = keepOnly keys b := by
  rw [keepOnly, keepOnly]
  induction keys with
  | nil => rfl
  | cons k keys ih =>
    rw [List.filterMap_cons, List.filterMap_cons, h k List.mem_cons_self, ih fun key hk => h key (List.mem_cons_of_mem _ hk)]

/-- Only the attributes that are used. -/
def used (name : Bytes) (a : List (Bytes × Bytes)) : List (Bytes × Bytes) := keepOnly (usedAttributes name) a

theorem used_relabelling (T : NameTables) : Relabelling T T id used where
  block := fun _ => rfl
  fix := fun _ _ _ => Iff.rfl
  bold := fun _ => rfl
  italic := fun _ => rfl
  strike := fun _ => rfl
  inlineCode := fun _ => rfl
  strong := rfl
  nil := by
    intro n
    rw [used, keepOnly]
    simp [valueOf]
  span := rfl
  look := by
    intro n key hk a
    rw [look_valueOf, look_valueOf, used, valueOf_keepOnly]
    exact if_pos hk

theorem used_dropping : Dropping used where
  again := by
    intro n a
    apply keepOnly_congr
    intro key hk
    rw [used, valueOf_keepOnly, if_pos hk]
  span := by intro n a; rfl
  strong := by intro n a; rfl
  code := by
    intro a
    apply keepOnly_congr
    intro key hk
    rw [used, valueOf_keepOnly]
    exact if_pos hk

/-! ## Names -/

/-- The first of the synonyms that is a block like `n`, or not a block like `n`. -/
def rep (T : NameTables) (g : List Bytes) (n : Bytes) : Bytes := (g.find? fun x => T.isBlock x == T.isBlock n).getD n

theorem rep_spec {T : NameTables} {g : List Bytes} {n : Bytes} (hn : n ∈ g) : rep T g n ∈ g ∧ T.isBlock (rep T g n) = T.isBlock n := by
  rw [rep]
  cases h : g.find? fun x => T.isBlock x == T.isBlock n with
  | none =>
    rw [List.find?_eq_none] at h
    exact absurd (h n hn) (by simp)
  | some x => exact ⟨List.mem_of_find?_eq_some h, by simpa using List.find?_some h⟩

theorem rep_eq {T : NameTables} {g : List Bytes} {m n : Bytes} (hn : n ∈ g) (e : T.isBlock m = T.isBlock n) : rep T g m = rep T g n := by
  rw [rep, rep, e]
  cases h : g.find? fun x => T.isBlock x == T.isBlock n with
  | none =>
    rw [List.find?_eq_none] at h
    exact absurd (h n hn) (by simp)
  | some x => rfl

abbrev g1 : List Bytes := [b!"strong", b!"b"]
abbrev g2 : List Bytes := [b!"em", b!"i"]
abbrev g3 : List Bytes := [b!"del", b!"s", b!"strike"]
abbrev g4 : List Bytes := [b!"kbd", b!"samp", b!"tt", b!"var"]

/-- One name for each meaning. -/
def canon (T : NameTables) (n : Bytes) : Bytes :=
  if n ∈ g1 then rep T g1 n else if n ∈ g2 then rep T g2 n else if n ∈ g3 then rep T g3 n else if n ∈ g4 then rep T g4 n
  else if n ∈ fixedNames then n else if T.isBlock n then b!"a block" else b!"no block"

/-- The tables with the two new names. -/
def canonTables (T : NameTables) : NameTables where
  isBlock := fun n => if n = b!"a block" then true else if n = b!"no block" then false else T.isBlock n
  isInline := T.isInline

theorem canon_cases (T : NameTables) (n : Bytes) :
    (∃ g ∈ [g1, g2, g3, g4], n ∈ g ∧ canon T n = rep T g n) ∨ ((∀ g ∈ [g1, g2, g3, g4], n ∉ g) ∧ n ∈ fixedNames ∧ canon T n = n) ∨
      ((∀ g ∈ [g1, g2, g3, g4], n ∉ g) ∧ n ∉ fixedNames ∧ canon T n = if T.isBlock n then b!"a block" else b!"no block") := by
  by_cases h1 : n ∈ g1
  · exact .inl ⟨g1, by decide, h1, by rw [canon, if_pos h1]⟩
  by_cases h2 : n ∈ g2
  · exact .inl ⟨g2, by decide, h2, by rw [canon, if_neg h1, if_pos h2]⟩
  by_cases h3 : n ∈ g3
  · exact .inl ⟨g3, by decide, h3, by rw [canon, if_neg h1, if_neg h2, if_pos h3]⟩
  by_cases h4 : n ∈ g4
  · exact .inl ⟨g4, by decide, h4, by rw [canon, if_neg h1, if_neg h2, if_neg h3, if_pos h4]⟩
  have hg : ∀ g ∈ [g1, g2, g3, g4], n ∉ g := by
    intro g hg
    simp only [List.mem_cons, List.not_mem_nil, or_false] at hg
    rcases hg with rfl | rfl | rfl | rfl <;> assumption
  by_cases h5 : n ∈ fixedNames
  · exact .inr (.inl ⟨hg, h5, by rw [canon, if_neg h1, if_neg h2, if_neg h3, if_neg h4, if_pos h5]⟩)
  · exact .inr (.inr ⟨hg, h5, by rw [canon, if_neg h1, if_neg h2, if_neg h3, if_neg h4, if_neg h5]⟩)

theorem groups_fixed : ∀ g ∈ [g1, g2, g3, g4], ∀ n ∈ g, n ∉ fixedNames ∧ n ≠ b!"a block" ∧ n ≠ b!"no block" := by decide
theorem made_up : ∀ g ∈ [g1, g2, g3, g4], b!"a block" ∉ g ∧ b!"no block" ∉ g := by decide
theorem groups_disjoint : ∀ g ∈ [g1, g2, g3, g4], ∀ g' ∈ [g1, g2, g3, g4], ∀ n ∈ g, n ∈ g' → g = g' := by decide

theorem canon_group (T : NameTables) {g : List Bytes} (hg : g ∈ [g1, g2, g3, g4]) (n : Bytes) : canon T n ∈ g ↔ n ∈ g := by
  rcases canon_cases T n with ⟨g', hg', hn, e⟩ | ⟨ho, hf, e⟩ | ⟨ho, hf, e⟩
  · have hr := (rep_spec (T := T) hn).1
    rw [e]
    constructor
    · intro h
      rw [groups_disjoint g hg g' hg' _ h hr]
      exact hn
    · intro h
      rw [groups_disjoint g hg g' hg' _ h hn]
      exact hr
  · rw [e]
  · have h1 := made_up g hg
    have h2 := ho g hg
    rw [e]
    split <;> simp [h1, h2]

theorem canon_relabelling (T : NameTables) : Relabelling T (canonTables T) (canon T) fun _ a => a where
  block := by
    intro n
    rcases canon_cases T n with ⟨g', hg', hn, e⟩ | ⟨ho, hf, e⟩ | ⟨ho, hf, e⟩
    · have hr := rep_spec (T := T) hn
      have := groups_fixed g' hg' _ hr.1
      rw [e, canonTables]
      simp only [this.2.1, this.2.2, if_false, hr.2]
    · have h1 : n ≠ b!"a block" := by rintro rfl; revert hf; decide
      have h2 : n ≠ b!"no block" := by rintro rfl; revert hf; decide
      rw [e, canonTables]
      simp only [h1, h2, if_false]
    · rw [e, canonTables]
      cases hb : T.isBlock n
      · simp
      · simp
  fix := by
    intro x hx n
    rcases canon_cases T n with ⟨g', hg', hn, e⟩ | ⟨ho, hf, e⟩ | ⟨ho, hf, e⟩
    · have hr := rep_spec (T := T) hn
      constructor
      · intro h
        rw [← h, e] at hx
        exact absurd hx (groups_fixed g' hg' _ hr.1).1
      · intro h
        rw [← h] at hx
        exact absurd hx (groups_fixed g' hg' _ hn).1
    · rw [e]
    · rw [e]
      constructor
      · intro h
        exfalso
        rw [← h] at hx
        revert hx
        split <;> decide
      · intro h
        rw [← h] at hx
        exact absurd hx hf
  bold := by
    intro n
    have e : ∀ m, isBold m = decide (m ∈ g1) := by intro m; simp [isBold]
    rw [e, e, decide_eq_decide]
    exact canon_group T (by decide) n
  italic := by
    intro n
    have e : ∀ m, isItalic m = decide (m ∈ g2) := by intro m; simp [isItalic]
    rw [e, e, decide_eq_decide]
    exact canon_group T (by decide) n
  strike := by
    intro n
    have e : ∀ m, isStrike m = decide (m ∈ g3) := by intro m; simp [isStrike]
    rw [e, e, decide_eq_decide]
    exact canon_group T (by decide) n
  inlineCode := by
    intro n
    have e : ∀ m, isInlineCode m = decide (m = b!"code" ∨ m ∈ g4) := by
      intro m
      rw [isInlineCode, decide_eq_decide]
      simp only [g4, List.mem_cons, List.not_mem_nil, or_false]
      grind
    rw [e, e, decide_eq_decide, canon_group T (g := g4) (by decide) n]
    have : canon T n = b!"code" ↔ n = b!"code" := by
      rcases canon_cases T n with ⟨g', hg', hn, e⟩ | ⟨ho, hf, e⟩ | ⟨ho, hf, e⟩
      · have hr := rep_spec (T := T) hn
        have h1 := (groups_fixed g' hg' _ hr.1).1
        have h2 := (groups_fixed g' hg' _ hn).1
        rw [e]
        constructor
        · intro h; rw [h] at h1; exact absurd (by decide) h1
        · intro h; rw [h] at h2; exact absurd (by decide) h2
      · rw [e]
      · rw [e]
        constructor
        · intro h; exfalso; revert h; split <;> decide
        · intro h; rw [h] at hf; exact absurd (by decide) hf
    rw [this]
  strong := by
    rw [canon, if_pos (by decide), rep]
    simp
  nil := fun _ => rfl
  span := rfl
  look := fun _ _ _ _ => rfl

theorem special_mem (n : Bytes) : n ∈ specialNames ↔ (∃ g ∈ [g1, g2, g3, g4], n ∈ g) ∨ n ∈ fixedNames := by
  have h1 : ∀ n ∈ specialNames, (∃ g ∈ [g1, g2, g3, g4], n ∈ g) ∨ n ∈ fixedNames := by decide
  have h2 : ∀ g ∈ [g1, g2, g3, g4], ∀ n ∈ g, n ∈ specialNames := by decide
  have h3 : ∀ n ∈ fixedNames, n ∈ specialNames := by decide
  exact ⟨h1 n, fun h => h.elim (fun ⟨g, hg, hn⟩ => h2 g hg n hn) (h3 n)⟩

theorem canon_eq {T : NameTables} {m n : Bytes} (h : MeansSame T m n) : canon T m = canon T n := by
  rcases h with rfl | ⟨hb, ⟨g, hg, hm, hn⟩ | ⟨hm, hn⟩⟩
  · rfl
  · have hg : g ∈ [g1, g2, g3, g4] := hg
    have key : ∀ x ∈ g, canon T x = rep T g x := by
      intro x hx
      rcases canon_cases T x with ⟨g', hg', hx', e⟩ | ⟨ho, hf, e⟩ | ⟨ho, hf, e⟩
      · rw [groups_disjoint g hg g' hg' x hx hx', e]
      · exact absurd hx (ho g hg)
      · exact absurd hx (ho g hg)
    rw [key m hm, key n hn]
    exact rep_eq hn hb
  · have key : ∀ x, x ∉ specialNames → canon T x = if T.isBlock x then b!"a block" else b!"no block" := by
      intro x hx
      rw [special_mem] at hx
      rcases canon_cases T x with ⟨g', hg', hx', e⟩ | ⟨ho, hf, e⟩ | ⟨ho, hf, e⟩
      · exact absurd (.inl ⟨g', hg', hx'⟩) hx
      · exact absurd (.inr hf) hx
      · exact e
    rw [key m hm, key n hn, hb]

theorem used_canon (T : NameTables) (n : Bytes) : usedAttributes (canon T n) = usedAttributes n := by
  have h := canon_relabelling T
  rw [usedAttributes, usedAttributes]
  simp only [h.e_a, h.e_img, h.e_ol, h.e_pre, h.e_code, h.e_th, h.e_td, h.e_table]

/-- The canonical form. -/
def canonical (T : NameTables) (d : Node) : Node := relabel id used (relabel (canon T) (fun _ a => a) d)
/-- The canonical forms of siblings. -/
def canonicalL (T : NameTables) (d : List Node) : List Node := relabelL id used (relabelL (canon T) (fun _ a => a) d)

theorem canonical_convert (E : Env) (d : Node) : Render.convertNode (withTables E (canonTables E.tables)) (canonical E.tables d) = Render.convertNode E d := by
  rw [canonical, convertNode_drop (used_relabelling _) used_dropping, convertNode_relabel (canon_relabelling E.tables) fun _ _ => rfl]

mutual
theorem canonical_eq {T : NameTables} : ∀ {d d' : Node}, SameMeaning T d d' → canonical T d = canonical T d'
  | _, _, .text d => rfl
  | _, _, .comment d => rfl
  | _, _, .doctype d d' => rfl
  | _, _, .document h => congrArg Node.document (canonicalL_eq h)
  | _, _, .elem (m := m) (n := n) (a := a) (b := b) (cs := cs) (cs' := cs') hn ha h => by
    show Node.elem (canon T m) (used (canon T m) a) (canonicalL T cs) = Node.elem (canon T n) (used (canon T n) b) (canonicalL T cs')
    have : used (canon T m) a = used (canon T m) b := by
      apply keepOnly_congr
      rw [used_canon]
      exact ha
    rw [canonicalL_eq h, this, canon_eq hn]
theorem canonicalL_eq {T : NameTables} : ∀ {d d' : List Node}, SameMeanings T d d' → canonicalL T d = canonicalL T d'
  | _, _, .nil => rfl
  | _, _, .cons (x := x) (y := y) (xs := xs) (ys := ys) h hs => by
    show canonical T x :: canonicalL T xs = canonical T y :: canonicalL T ys
    rw [canonical_eq h, canonicalL_eq hs]
end

end Verif.Alike
