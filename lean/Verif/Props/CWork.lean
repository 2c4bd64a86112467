import Verif.Model.CWork
import Mathlib.Tactic.Ring

/-!
# C119: the memory given to LAPACK
-/

set_option autoImplicit false

namespace Euphonic.CWork

/-- A size of -1 asks for the best sizes. -/
def Sizes.IsQuery (s : Sizes) : Prop := s.lwork = -1 ∨ s.lrwork = -1 ∨ s.liwork = -1

instance (s : Sizes) : Decidable s.IsQuery := inferInstanceAs (Decidable (_ ∨ _ ∨ _))

/-- LAPACK's documentation of `zheevd`: how many bytes of an argument may be read or written. `A` is `COMPLEX*16` with
leading dimension `order`, `W` `DOUBLE PRECISION`, `WORK` `COMPLEX*16`, `RWORK` `DOUBLE PRECISION`, `IWORK` `INTEGER`; a
query only writes the first elements of the three work arrays. -/
def touched (s : Sizes) : Arg → Nat
  | .a => if s.IsQuery then 0 else 16 * (s.order * s.order)
  | .w => if s.IsQuery then 0 else 8 * s.order
  | .work => if s.IsQuery then 16 else 16 * (max 1 s.lwork).toNat
  | .rwork => if s.IsQuery then 8 else 8 * (max 1 s.lrwork).toNat
  | .iwork => if s.IsQuery then 4 else 4 * (max 1 s.liwork).toNat

/-- The smallest sizes allowed with `JOBZ = 'V'`, otherwise nothing is computed. -/
def Enough (s : Sizes) : Prop :=
  if s.order ≤ 1 then 1 ≤ s.lwork ∧ 1 ≤ s.lrwork ∧ 1 ≤ s.liwork
  else (2 * s.order + s.order * s.order : Int) ≤ s.lwork ∧ (1 + 5 * s.order + 2 * (s.order * s.order) : Int) ≤ s.lrwork
    ∧ (3 + 5 * s.order : Int) ≤ s.liwork

/-- **C119** The call that diagonalises stays within the matrix, the eigenvalues and the work arrays, whatever sizes the
query has returned. *Missing:* the query itself, see `C119_query_overrun`. -/
theorem C119_workspace_partial (n lw lr li : Nat) (h : Enough (diagonalise n lw lr li).sizes) (x : Arg) :
    touched (diagonalise n lw lr li).sizes x ≤ (diagonalise n lw lr li).room x := by
  have h1 : 1 ≤ lw ∧ 1 ≤ lr ∧ 1 ≤ li := by
    unfold Enough diagonalise at h
    simp only at h
    split at h
    · omega
    · have := Int.mul_nonneg (Int.natCast_nonneg (3 * n)) (Int.natCast_nonneg (3 * n))
      omega
  have hq : ¬ (diagonalise n lw lr li).sizes.IsQuery := by
    unfold Sizes.IsQuery diagonalise
    simp only
    omega
  cases x <;> simp only [touched, hq, if_false] <;> simp only [diagonalise]
  · refine Nat.le_of_eq ?_
    ring
  all_goals omega

/-- The query does not read or write the matrix and the eigenvalues and the variables for the sizes of the real and the
integer array have room for them. -/
theorem C119_query_partial (n : Nat) (lw0 lr0 : Int) (x : Arg) (hx : x ≠ .work) :
    (query n lw0 lr0).sizes.IsQuery ∧ touched (query n lw0 lr0).sizes x ≤ (query n lw0 lr0).room x := by
  have hq : (query n lw0 lr0).sizes.IsQuery := Or.inr (Or.inr rfl)
  refine ⟨hq, ?_⟩
  cases x <;> simp_all [touched, query]

/-- **C119** *Violation:* for every crystal, the query writes a complex number of 16 bytes to the variable `lworkopt`, which
has 8. -/
theorem C119_query_overrun (n : Nat) (lw0 lr0 : Int) :
    (query n lw0 lr0).room .work < touched (query n lw0 lr0).sizes .work := by
  have hq : (query n lw0 lr0).sizes.IsQuery := Or.inr (Or.inr rfl)
  simp only [touched, hq, if_true]
  show 8 < 16
  decide

/-- Two atoms with the smallest sizes. -/
example : Enough (diagonalise 2 48 103 33).sizes ∧ touched (diagonalise 2 48 103 33).sizes .work = 768 := by
  constructor
  · unfold Enough diagonalise; simp
  · decide

end Euphonic.CWork
