import Mathlib.Algebra.BigOperators.Group.List.Basic
import Mathlib.Algebra.Module.NatInt
import Mathlib.Tactic.Linarith

/-!
# Positions in lists made of equal blocks
-/

set_option autoImplicit false

namespace Euphonic

theorem length_flatMap_const {α β : Type} (l : List α) (g : α → List β) (c : Nat)
    (hg : ∀ a ∈ l, (g a).length = c) : (l.flatMap g).length = l.length * c := by
  rw [List.length_flatMap, List.map_congr_left hg, List.map_const', List.sum_replicate]
  simp

theorem getElem?_flatMap_const {α β : Type} (l : List α) (g : α → List β) (c : Nat)
    (hg : ∀ a ∈ l, (g a).length = c) (i j : Nat) (hj : j < c) :
    (l.flatMap g)[i * c + j]? = (l[i]?).bind fun a => (g a)[j]? := by
  induction l generalizing i with
  | nil => simp
  | cons a l ih =>
    have ha := hg a (by simp)
    rw [List.flatMap_cons]
    cases i with
    | zero => rw [List.getElem?_append_left (by omega)]; simp
    | succ i =>
      rw [List.getElem?_append_right (by rw [ha]; nlinarith), ha,
        show (i + 1) * c + j - c = i * c + j by rw [Nat.add_mul]; omega,
        ih (fun b hb => hg b (by simp [hb])) i]
      simp

end Euphonic
