import Verif.Model.DynMat

/-!
# Model of the acoustic sum rule corrections (euphonic/force_constants.py:1366-1500)

Numbers are exact; the eigensolver is external: its eigenvalues and eigenvectors are arguments.  Matrices
are indexed by a finite type `ι` of rows instead of the flattened row number; `dir` gives the Cartesian
direction of a row.
-/

set_option autoImplicit false

namespace Euphonic.Asr

open Euphonic.DynMat

variable {ι : Type} [Fintype ι] {M : Nat}

/-- `c_of_m_disp_sq` of one mode (euphonic/force_constants.py:1483-1488). -/
noncomputable def comSq (dir : ι → Fin 3) (e : ι → ℂ) : ℝ :=
  ∑ d, ‖∑ k, if dir k = d then e k else 0‖ ^ 2

/-- `_find_acoustic_modes` after the diagonalisation (euphonic/force_constants.py:1483-1498): `none` is the
exception.  `np.argsort` is modelled by a stable sort (numpy may order equal values differently). -/
noncomputable def acoustic (nAtoms : Nat) (dir : ι → Fin 3) (evecs : Fin M → ι → ℂ) :
    Option (List (Fin M)) :=
  let c := fun s => comSq dir (evecs s)
  if ((List.finRange M).filter fun s => decide (c s > 1 / 2 * (nAtoms : ℝ))).length < 3 then none
  else some (((List.finRange M).mergeSort fun s s' => decide (c s ≤ c s')).drop (M - 3))

/-- The loop of `_enforce_reciprocal_asr` (euphonic/force_constants.py:1450-1455): `np.einsum('i,j->ij')`
does not conjugate. -/
noncomputable def recipCorrection (tol : ℝ) (evals : Fin M → ℝ) (evecs : Fin M → ι → ℂ)
    (ac : List (Fin M)) : ι → ι → ℂ :=
  fun k l => -(ac.mapIdx fun i s => ((tol * i + evals s : ℝ) : ℂ) * (evecs s k * evecs s l)).sum

/-- `tol` (euphonic/force_constants.py:1437). -/
noncomputable def recipTol : ℝ := 5 / 10 ^ 15

/-- `_enforce_reciprocal_asr` (euphonic/force_constants.py:1416-1457): `none` if there is no correction. -/
noncomputable def enforceReciprocal (nAtoms : Nat) (dir : ι → Fin 3) (evals : Fin M → ℝ)
    (evecs : Fin M → ι → ℂ) : Option (ι → ι → ℂ) :=
  (acoustic nAtoms dir evecs).map (recipCorrection recipTol evals evecs)

variable {N n : Nat}

/-- `sq_fc` (euphonic/force_constants.py:1389-1394): row block `nc` is the transpose of the reshaped
`force_constants[sc_rel_idx[nc]]`; rows and columns are pairs (cell, row in the cell). -/
def sqFc (fc : Fin N → Mat n ℝ) (rel : Fin N → Fin N → Fin N) : Fin N × Fin (n * 3) →
    Fin N × Fin (n * 3) → ℝ :=
  fun k l => fc (rel k.1 l.1) l.2 k.2

/-- `fc_tol` (euphonic/force_constants.py:1406). -/
noncomputable def fcTol (evals : Fin M → ℝ) : ℝ :=
  1 / 10 ^ 8 * ((List.ofFn fun s => |evals s|).min?).getD 0

/-- The loop of `_enforce_realspace_asr` (euphonic/force_constants.py:1407-1409). -/
noncomputable def realCorrected (sq : ι → ι → ℝ) (evals : Fin M → ℝ) (evecs : Fin M → ι → ℝ)
    (ac : List (Fin M)) : ι → ι → ℝ :=
  fun k l => sq k l - (ac.map fun s => (fcTol evals + evals s) * (evecs s k * evecs s l)).sum

/-- `_enforce_realspace_asr` (euphonic/force_constants.py:1366-1414); `c0` is the first cell, `eigh` the
external eigensolver. -/
noncomputable def enforceRealspace (c0 : Fin N) (fc : Fin N → Mat n ℝ) (rel : Fin N → Fin N → Fin N)
    (eigh : (Fin N × Fin (n * 3) → Fin N × Fin (n * 3) → ℝ) →
      (Fin M → ℝ) × (Fin M → Fin N × Fin (n * 3) → ℝ)) : Fin N → Mat n ℝ :=
  let sq := sqFc fc rel
  let ev := eigh sq
  match acoustic (N * n) (fun k => k.2.modNat) (fun s k => ((ev.2 s k : ℝ) : ℂ)) with
  | none => fc
  | some ac => fun c k l => realCorrected sq ev.1 ev.2 ac (c, k) (c0, l)

end Euphonic.Asr
