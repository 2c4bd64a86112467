import Verif.Model.Supercell
import Mathlib.Analysis.SpecialFunctions.Trigonometric.Basic

/-!
# Model of the phase factors (euphonic/force_constants.py:547-563, 1502-1567)

Complex numbers are exact.  `np.power` with an integer exponent is the integer power.
-/

set_option autoImplicit false

namespace Euphonic.Phases

open Euphonic.Lattice Euphonic.Supercell

/-- Component `i` of a vector (column `i` of a list of rows). -/
def comp {K : Type} (v : V3 K) (i : Fin 3) : K := ![v.x, v.y, v.z] i

/-- `np.unique(l, return_inverse=True)`: the distinct values in increasing order, and for each element
of `l` the index of its value (used in euphonic/force_constants.py:506-508, 560-563). -/
def npUnique {α : Type} [DecidableEq α] (le : α → α → Bool) (l : List α) : List α × List Nat :=
  let u := (l.mergeSort le).dedup
  (u, l.map fun a => u.idxOf a)

/-- `sc_image_r` (euphonic/force_constants.py:550-551, 1605-1606): supercell images up to `s` shells. -/
def imageShells (s : Nat) : Except Err (List (V3 ℤ)) :=
  getAllOrigins ⟨(s : ℤ) + 1, (s : ℤ) + 1, (s : ℤ) + 1⟩ ⟨-(s : ℤ), -(s : ℤ), -(s : ℤ)⟩

/-- `sc_origins` (euphonic/force_constants.py:552-553): the images in units of the unit cell. -/
def scOrigins (S : M3 ℤ) (images : List (V3 ℤ)) : List (V3 ℤ) := images.map fun v => mulMat v S

/-- The unique coordinates of a list of origins in each direction and the indices rebuilding it
(euphonic/force_constants.py:554-563). -/
def uniqueCoords (os : List (V3 ℤ)) (i : Fin 3) : List ℤ × List Nat :=
  npUnique (fun a b => decide (a ≤ b)) (os.map fun v => comp v i)

/-- One half of `_calculate_phases` (euphonic/force_constants.py:1556-1565): the phases for a list of
`n` origins given by unique coordinates `uo` and indices `ui`. -/
noncomputable def calculatePhases (q : V3 ℝ) (uo : Fin 3 → List ℤ) (ui : Fin 3 → List Nat) (n : Nat) :
    List ℂ :=
  let phase := fun i => Complex.exp (2 * Complex.I * Real.pi * (comp q i : ℝ))
  (List.finRange 3).foldl (fun phases i =>
    let unique := (uo i).map fun r => phase i ^ r
    List.zipWith (· * ·) phases ((ui i).map fun k => unique.getD k 0)) (List.replicate n 1)

/-- The phases of a list of origins as `_calculate_phonons_at_qpts` has them computed
(euphonic/force_constants.py:554-563, 1502-1567). -/
noncomputable def phasesOf (q : V3 ℝ) (os : List (V3 ℤ)) : List ℂ :=
  calculatePhases q (fun i => (uniqueCoords os i).1) (fun i => (uniqueCoords os i).2) os.length

/-- Indexing an array with a possibly negative index: negative numbers count from the end
(used in euphonic/force_constants.py:934). -/
def phaseAt (l : List ℂ) (k : ℤ) : ℂ :=
  if 0 ≤ k then l.getD k.toNat 0 else l.getD (l.length - (-k).toNat) 0

/-- `sc_phases[sc_image_i]` summed over the images of one pair (euphonic/force_constants.py:929-935):
the array of phases is one longer than needed, its last element is zero. -/
def phaseSum (phases : List ℂ) (images : List ℤ) : ℂ :=
  (images.map fun k => phaseAt (phases ++ [0]) k).sum

end Euphonic.Phases
