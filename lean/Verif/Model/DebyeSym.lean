import Verif.Model.Scatter
import Verif.Model.Symmetry

/-!
# Model of the symmetrisation in `calculate_debye_waller` (euphonic/qpoint_phonon_modes.py:409-420)

The operations of `spglib.get_symmetry` are a parameter, as in `Model/Symmetry.lean`.
-/

set_option autoImplicit false

namespace Euphonic.DebyeSym

open Euphonic.Lattice Euphonic.Phases Euphonic.Symmetry Euphonic.Scatter

/-- Element of a matrix given by rows. -/
def entry {K : Type} (M : M3 K) (i j : Fin 3) : K := comp (![M.a, M.b, M.c] i) j

/-- `np.einsum('ijk,jl,km->ilm', rot, cell_vec, recip_vec)/(2*np.pi)` for one operation
(euphonic/qpoint_phonon_modes.py:413-416); `recip_vec` is the reciprocal cell (euphonic/crystal.py:61-86). -/
noncomputable def rotCart (cv : M3 ℝ) (W : M3 ℤ) (l m : Fin 3) : ℝ :=
  (∑ j, ∑ k, ((entry W j k : ℤ) : ℝ) * entry cv j l * entry (reciprocalCell (2 * Real.pi) cv) k m) / (2 * Real.pi)

/-- Row `s` of the table of equivalent atoms as an index array (euphonic/crystal.py:241-277).  Simplified: entries out of range
are replaced by the atom itself; there are none once the table has been returned (C75_table). -/
def eqRow {n : Nat} (T : Table) (s : Nat) (a : Fin n) : Fin n :=
  if h : 0 ≤ T s a ∧ (T s a).toNat < n then ⟨(T s a).toNat, h.2⟩ else a

/-- `self.crystal.get_symmetry_equivalent_atoms()` and the Cartesian rotations (euphonic/qpoint_phonon_modes.py:411-416). -/
noncomputable def symOps {n : Nat} (cv : M3 ℝ) (types : Fin n → String) (r : Fin n → V3 ℝ) (tol : ℝ)
    (symm : Option (List (Op ℝ))) : Except Err (List (SymOp n)) :=
  (equivalentAtoms cv (List.ofFn types) (List.ofFn r) tol symm).map fun T =>
    (symm.getD []).mapIdx fun s op => ⟨rotCart cv op.W, eqRow T s⟩

/-- `calculate_debye_waller` with the argument `symmetrise` (euphonic/qpoint_phonon_modes.py:409-423). -/
noncomputable def debyeWaller {na nq nm : Nat} {C : Cryst na} (cv : M3 ℝ) (r : Fin na → V3 ℝ) (tol : ℝ)
    (symm : Option (List (Op ℝ))) (chunk : Nat) (m : Modes C nq nm) (kB temp fmin : ℝ) (symmetrise : Bool) : Except Err DW :=
  if symmetrise then
    (symOps cv C.atomType r tol symm).map fun ops => calculateDebyeWaller chunk m kB temp fmin (some ops)
  else .ok (calculateDebyeWaller chunk m kB temp fmin none)

end Euphonic.DebyeSym
