import Verif.Model.Scatter
import Verif.Model.PowderSample

/-!
# Model of the Debye-Waller factor of the command line tools (euphonic/cli/utils.py)

`_grid_spec_from_args`, `_get_debye_waller`, and the two places that use them: `euphonic-intensity-map` and
`euphonic-powder-map` with the weighting `coherent`.  Not modelled: Fourier interpolation (C01-C18), the search for the
symmetry operations (C75), which are parts of `Fc`.
-/

set_option autoImplicit false

namespace Euphonic.DwCli

open Euphonic.Lattice Euphonic.Scatter

/-- What is used of the force constants, with the options for the calculation of modes (`calc_modes_kwargs`) applied:
frequencies in hartree and eigenvectors at each wavevector, and the operations that `calculate_debye_waller` uses. -/
structure Fc (na : Nat) where
  cell : M3 ℝ
  cryst : Cryst na
  freqs : V3 ℝ → Fin (3 * na) → ℝ
  evecs : V3 ℝ → Fin (3 * na) → Fin na → Fin 3 → ℂ
  sym : List (SymOp na)

/-- The options: `--temperature`, `--grid`, `--grid-spacing` (euphonic/cli/utils.py:610-627); `conv` is the factor
from the unit of the reciprocal cell to the inverse of `--length-unit`. -/
structure Args where
  temperature : Option ℝ
  grid : Option (ℤ × ℤ × ℤ)
  gridSpacing : ℝ
  conv : ℝ

/-- Physical constants and settings: Boltzmann's constant in hartree per kelvin, `frequency_min` in hartree, the size of the
chunks (euphonic/qpoint_phonon_modes.py:298-302, 362-390), and the conversion of structure factors. -/
structure Settings where
  kB : ℝ
  fmin : ℝ
  chunk : Nat
  sfConv : ℝ

variable {na : Nat}

/-- `calculate_qpoint_phonon_modes(qpts)` without weights (euphonic/force_constants.py:166-271). -/
noncomputable def modesAt (f : Fc na) (l : List (V3 ℝ)) : Modes f.cryst l.length (3 * na) where
  qpts := fun q => ![l[q].x, l[q].y, l[q].z]
  freqs := fun q => f.freqs l[q]
  evecs := fun q => f.evecs l[q]
  weights := Dos.defaultWeights l.length

/-- `_grid_spec_from_args` (euphonic/cli/utils.py:346-355): a tuple of three numbers is never empty. -/
noncomputable def gridSpecFromArgs (cell : M3 ℝ) (a : Args) : ℤ × ℤ × ℤ :=
  match a.grid with
  | some g => g
  | none => mpGridSpec (2 * Real.pi) a.conv a.gridSpacing cell

/-- `_get_debye_waller` (euphonic/cli/utils.py:358-373), with `symmetrise=True` as in the default.  For numbers that are not
positive there are no points, and what numpy does with that is not described. -/
noncomputable def getDebyeWaller (s : Settings) (f : Fc na) (a : Args) (t : ℝ) : Except Err DW := do
  let g := gridSpecFromArgs f.cell a
  let qpts ← mpGrid ℝ g.1.toNat g.2.1.toNat g.2.2.toNat
  return calculateDebyeWaller s.chunk (modesAt f qpts) s.kB t s.fmin (some f.sym)

/-- The Debye-Waller object of the tools (euphonic/cli/intensity_map.py:57-65, euphonic/cli/powder_map.py:166-178). -/
noncomputable def dwOf (s : Settings) (f : Fc na) (a : Args) : Except Err (Option DW) :=
  match a.temperature with
  | some t => do return some (← getDebyeWaller s f a t)
  | none => .ok none

/-- The intensities of `euphonic-intensity-map --weighting coherent` for force constants
(euphonic/cli/intensity_map.py:56-70): one row per q-point of the path; `data` are the scattering lengths, `c` is the unit of
the bins in hartree. -/
noncomputable def intensityRows (s : Settings) (c : ℝ) (data : String → Option ℂ) (f : Fc na) (a : Args)
    (path : List (V3 ℝ)) (bins : List ℝ) : Except Err (List (List ℝ)) := do
  let dw ← dwOf s f a
  let sf ← calculateStructureFactor (modesAt f path) data dw
  Dos.calculateSqwMap Real.exp s.kB c s.sfConv bins true sf.temperature none sf.freqs sf.sf

/-- The row of `euphonic-powder-map --weighting coherent` for one sphere (euphonic/cli/powder_map.py:166-178, 207-217;
euphonic/powder.py:295-320): the points of the sphere are given; `dw` has the temperature of the options, so that it is not
refused. -/
noncomputable def powderRow (s : Settings) (c : ℝ) (data : String → Option ℂ) (f : Fc na) (a : Args)
    (sphere : List (V3 ℝ)) (bins : List ℝ) : Except Err (List ℝ) := do
  let dw ← dwOf s f a
  match a.temperature, dw with
  | some t, some d => if PowderSample.closeTemp d.temperature t then pure () else throw Err.valueError
  | _, _ => pure ()
  let sf ← calculateStructureFactor (modesAt f sphere) data dw
  Dos.calculate1dAverage Real.exp s.kB c s.sfConv bins true sf.temperature none sf.freqs sf.sf sf.weights none

end Euphonic.DwCli
