import Verif.Model.Base
import Verif.Model.Lattice
import Verif.Model.Phases

/-!
# Model of the band path made for force constants (euphonic/cli/utils.py, euphonic/crystal.py)

What is given to Seekpath and what is done with its answer.  Seekpath itself (`get_explicit_k_path`) is a parameter.  Not
modelled: the insertion of gamma points and the labels (C71), the calculation of the modes.
-/

set_option autoImplicit false

namespace Euphonic.BandPath

open Euphonic.Lattice Euphonic.Phases

/-- What is used of a `Crystal` (euphonic/crystal.py:66-79): cell vectors in angstrom, the value of `cell_vectors_unit` in
angstrom, fractional coordinates and types of the atoms. -/
structure Crystal where
  cv : M3 ℝ
  unit : ℝ
  r : List (V3 ℝ)
  types : List String

/-- `(lattice, positions, numbers)` as understood by Spglib and Seekpath. -/
structure Cell where
  lattice : M3 ℝ
  positions : List (V3 ℝ)
  numbers : List Nat

/-- All three vectors times a number. -/
noncomputable def scaleM (s : ℝ) (m : M3 ℝ) : M3 ℝ := ⟨smul s m.a, smul s m.b, smul s m.c⟩

/-- `Crystal.to_spglib_cell` (euphonic/crystal.py:165-183): the numbers that the cell vectors have in their unit, and the
position of the type of each atom in the sorted list of types. -/
noncomputable def toSpglibCell (c : Crystal) : Cell :=
  ⟨scaleM (1 / c.unit) c.cv, c.r, (npUnique (fun a b => decide (a ≤ b)) c.types).2⟩

/-- What Pint makes of the text of `--length-unit` (`ureg(length_unit_string)`): a length with a value in angstrom,
something else, or nothing. -/
inductive UnitText where
  | length (value : ℝ)
  | other
  | unknown

/-- `_get_q_distance` (euphonic/cli/utils.py:186-197): a number of inverse angstrom, or a quantity that is no inverse length. -/
noncomputable def getQDistance : UnitText → ℝ → Except Err (Option ℝ)
  | .length v, q => .ok (some (q / v))
  | .other, _ => .ok none
  | .unknown, _ => .error .valueError

/-- What is used of the answer of `seekpath.get_explicit_k_path`: `explicit_kpoints_rel`, `explicit_kpoints_labels`, and the
`primitive_lattice` that the coordinates refer to (in the unit of the lattice it was given). -/
structure Path where
  rel : List (V3 ℝ)
  labels : List String
  primitive : M3 ℝ

/-- The band path (euphonic/cli/utils.py:314-321; euphonic/cli/dispersion.py:27, euphonic/cli/intensity_map.py:36). -/
noncomputable def bandPath (seek : Cell → ℝ → Path) (c : Crystal) (u : UnitText) (qSpacing : ℝ) : Except Err Path := do
  match ← getQDistance u qSpacing with
  | none => .error .dimensionalityError
  | some d => .ok (seek (toSpglibCell c) d)

/-- The q-points that the modes are calculated at (euphonic/cli/utils.py:333-342), as Cartesian vectors in inverse angstrom:
`calculate_qpoint_phonon_modes` takes coordinates with respect to the cell of the crystal. -/
noncomputable def qpointsUsed (c : Crystal) (p : Path) : List (V3 ℝ) :=
  p.rel.map (toCart (reciprocalCell (2 * Real.pi) c.cv))

end Euphonic.BandPath
