import Verif.Model.Render
/-!
# Conversions of single documents can be computed by the kernel

`mergeAdjacentF` is the only definition of the model that is not structurally recursive; here is an equal one with fuel.
-/

namespace Verif.Render
open Verif Verif.DomUtils

def mergeFuel (m : Bytes → Bool) : Nat → List (List Node) → List (List Node)
  | 0, fs => fs
  | _ + 1, [] => []
  | k + 1, [] :: fs => [] :: mergeFuel m k fs
  | k + 1, (n :: cs) :: fs =>
    match mergeFuel m k (mergeStep m n cs fs) with
    | ks :: cs' :: fs' => (withChildren n ks :: cs') :: fs'
    | _ => []

theorem mergeStep_length (m : Bytes → Bool) (n : Node) (cs : List Node) (fs : List (List Node)) :
    (mergeStep m n cs fs).length ≤ fs.length + 2 := by
  have : ∀ fs : List (List Node), (collectFrames m fs).2.length = fs.length := by
    intro fs
    induction fs with
    | nil => rfl
    | cons f fs ih =>
      rw [collectFrames]
      simp only
      split
      · simp [ih]
      · simp
  rw [mergeStep]
  split
  · simp [this]
  · simp

theorem mergeFuel_eq (m : Bytes → Bool) : ∀ (k : Nat) (fs : List (List Node)), 2 * sizeF fs + fs.length ≤ k → mergeFuel m k fs = mergeAdjacentF m fs
  | 0, fs, h => by
    have : fs = [] := List.length_eq_zero_iff.1 (by omega)
    subst this
    rw [mergeFuel, mergeAdjacentF]
  | k + 1, [], _ => by rw [mergeFuel, mergeAdjacentF]
  | k + 1, [] :: fs, h => by
    simp only [sizeF, sizeL, List.length_cons] at h
    rw [mergeFuel, mergeAdjacentF, mergeFuel_eq m k fs (by omega)]
  | k + 1, (n :: cs) :: fs, h => by
    have h1 := mergeStep_size m n cs fs
    have h2 := mergeStep_length m n cs fs
    simp only [List.length_cons] at h
    rw [mergeFuel, mergeAdjacentF, mergeFuel_eq m k _ (by omega)]
    rcases mergeAdjacentF m (mergeStep m n cs fs) with _ | ⟨a, _ | ⟨b, c⟩⟩ <;> rfl

theorem mergeAdjacent_eq (m : Bytes → Bool) (doc : Node) :
    mergeAdjacent m doc = ((mergeFuel m (2 * size doc + 1) [[doc]]).headD []).headD doc := by
  rw [mergeAdjacent, mergeFuel_eq]
  simp [sizeF, sizeL]

end Verif.Render
