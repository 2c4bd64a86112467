import Verif.Model.Dipole

/-!
# Model of `ForceConstants.from_total_fc_with_dipole` (euphonic/force_constants.py:1722-1802)

Numbers are exact; `scipy.special.erfc` is a parameter.  Units enter as the factors that convert them to atomic
units.  `np.linalg.inv` is Mathlib's inverse, a singular matrix raises.  The validation done by the constructor
called at the end is modelled in `Verif.Model.Objects`.
-/

set_option autoImplicit false

namespace Euphonic.TotalFc

open Euphonic.Lattice Euphonic.Phases Euphonic.Images Euphonic.DynMat Euphonic.Dipole

/-- The arguments (euphonic/force_constants.py:1723-1726) for `N` cells of `n` atoms: magnitudes and unit
factors.  `cv` is in bohr (`crystal._cell_vectors`). -/
structure Args (N n : Nat) where
  cv : M3 ℝ
  r : Fin n → V3 ℝ
  fc : Fin N → Mat n ℝ
  fcUnit : ℝ
  S : M3 ℤ
  cells : Fin N → V3 ℤ
  born : Fin n → Fin 3 → Fin 3 → ℝ
  bornUnit : ℝ
  diel : Matrix (Fin 3) (Fin 3) ℝ
  dielUnit : ℝ

variable {N n : Nat}

/-- A row of a matrix. -/
def row {K : Type} (m : M3 K) (i : Fin 3) : V3 K := ![m.a, m.b, m.c] i

/-- The supercell matrix as a matrix of numbers. -/
def matrixOf (S : M3 ℤ) : Matrix (Fin 3) (Fin 3) ℝ := fun i j => ((comp (row S i) j : ℤ) : ℝ)

/-- A vector from its components. -/
def ofComp {K : Type} (f : Fin 3 → K) : V3 K := ⟨f 0, f 1, f 2⟩

/-- `sc_atom_r` (euphonic/force_constants.py:1774-1775): `np.repeat` of the cell origins plus `np.tile` of the
positions. -/
noncomputable def scAtomR (x : Args N n) (k : Fin (N * n)) : V3 ℝ := add (castV ℝ (x.cells k.divNat)) (x.r k.modNat)

/-- `sc_to_u_matrix` (euphonic/force_constants.py:1776). -/
noncomputable def scToU (S : M3 ℤ) : Matrix (Fin 3) (Fin 3) ℝ := ((matrixOf S)⁻¹).transpose

/-- One row of `sc_atom_r_scell` (euphonic/force_constants.py:1777): `einsum('ij,jk->ik')`. -/
noncomputable def toScell (S : M3 ℤ) (v : V3 ℝ) : V3 ℝ := ofComp (vecMat v (scToU S))

/-- The supercell crystal, its Born charges and the dielectric tensor that the dipole term is calculated with
(euphonic/force_constants.py:1778-1792).  The Born charges are converted to atomic units, of the dielectric
tensor the bare magnitude is used. -/
noncomputable def scIons (x : Args N n) : Ions (N * n) where
  cv := scVecs x.S x.cv
  r := fun k => toScell x.S (scAtomR x k)
  born := fun k a b => x.born k.modNat a b * x.bornUnit
  diel := x.diel

theorem index_lt {N m c k : Nat} (hc : c < N) (hk : k < m * 3) : c * (m * 3) + k < N * m * 3 := by
  calc c * (m * 3) + k < c * (m * 3) + m * 3 := by omega
    _ = (c + 1) * (m * 3) := by ring
    _ ≤ N * (m * 3) := Nat.mul_le_mul_right _ hc
    _ = N * m * 3 := by ring

/-- The row of the supercell matrix of coordinate `k` in cell `c`; cell 0 gives the first `3*n_atoms` columns. -/
def scIndex (c : Fin N) (k : Fin (n * 3)) : Fin (N * n * 3) := ⟨c * (n * 3) + k, index_lt c.2 k.2⟩

/-- `corr` after reshaping and transposing (euphonic/force_constants.py:1793-1795). -/
def reshapeCorr (c0 : Fin N) (corr : Mat (N * n) ℂ) (c : Fin N) : Mat n ℂ :=
  fun i j => corr (scIndex c j) (scIndex c0 i)

/-- `from_total_fc_with_dipole` (euphonic/force_constants.py:1722-1802): the corrected force constants, in the
unit of the input.  `LinAlgError`, a `ValueError`, for a singular supercell matrix; without cells there is
nothing to reshape (the dipole initialisation then fails, represented by `ValueError`). -/
noncomputable def fromTotal (erfc : ℝ → ℝ) (x : Args N n) : Except Err (Fin N → Mat n ℝ) :=
  open Classical in
  if (matrixOf x.S).det = 0 then .error .valueError
  else if h : 0 < N then
    let o := scIons x
    let corr := reshapeCorr ⟨0, h⟩ (dipoleCorrection erfc o (upperLambda o 1) ⟨0, 0, 0⟩)
    .ok fun c i j => ((x.fcUnit * x.fc c i j : ℝ) - corr c i j : ℂ).re / x.fcUnit
  else .error .valueError

end Euphonic.TotalFc
