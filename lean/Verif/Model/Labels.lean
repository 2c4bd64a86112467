import Verif.Model.Base
import Verif.Model.Lattice

/-!
# Model of the tables of q-point labels (euphonic/util.py:560-609) and of the axis of a path
(euphonic/qpoint_frequencies.py:311-329)

`seekpath` is a parameter.
-/

set_option autoImplicit false

namespace Euphonic.Labels

open Euphonic.Lattice

/-- `label_strings` (euphonic/util.py:599). -/
def labelStrings : List String := ["0", "1/4", "3/4", "1/2", "1/3", "2/3", "3/8", "5/8"]

/-- `label_coords` (euphonic/util.py:600). -/
noncomputable def labelCoords : List ℝ := [0, 0.25, 0.75, 0.5, 1 / 3, 2 / 3, 0.375, 0.625]

/-- `_generic_qpt_labels` (euphonic/util.py:593-609): the entries in the order of insertion. -/
noncomputable def genericTable : List (String × V3 ℝ) :=
  let ls := List.zip labelStrings labelCoords
  ls.flatMap fun a => ls.flatMap fun b => ls.map fun c => (a.1 ++ " " ++ b.1 ++ " " ++ c.1, ⟨a.2, b.2, c.2⟩)

/-- What `seekpath.get_path` does: a table, `SymmetryDetectionError`, or `TypeError`, the message of which contains
"positions has to be" or not. -/
inductive Seek where
  | table (t : List (String × V3 ℝ))
  | noSymmetry
  | badType (positions : Bool)

/-- The choice of the table (euphonic/util.py:561-582); a cell is given by the number of its atoms and what `seekpath`
makes of it. -/
noncomputable def labelTable (cell : Option (Nat × Seek)) : Except Err (List (String × V3 ℝ)) :=
  match cell with
  | none => .ok genericTable
  | some (_, .table t) => .ok t
  | some (_, .noSymmetry) => .ok genericTable
  | some (n, .badType positions) =>
    if !positions then .error .assertionError else if n = 0 then .ok genericTable else .error .assertionError

/-- `get_qpoint_labels` (euphonic/util.py:134-167). -/
noncomputable def getQpointLabels (coordText : V3 ℝ → String) (qpts : List (V3 ℝ)) (cell : Option (Nat × Seek)) :
    Except Err (List (Nat × String)) := do
  let t ← labelTable cell
  return qpointLabels t coordText qpts

/-- `QpointFrequencies._get_qpt_axis_and_labels` (euphonic/qpoint_frequencies.py:311-329): `recip` is the reciprocal cell
of the crystal, `cell` its cell for spglib. -/
noncomputable def axisAndLabels (recip : M3 ℝ) (coordText : V3 ℝ → String) (cell : Nat × Seek) (qpts : List (V3 ℝ)) :
    Except Err (List ℝ × List (Nat × String)) := do
  let ls ← getQpointLabels coordText qpts (some cell)
  return (calcAbscissa recip qpts, ls)

end Euphonic.Labels
