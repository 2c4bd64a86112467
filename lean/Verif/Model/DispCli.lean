import Verif.Model.Split
import Verif.Model.Lattice
import Verif.Model.Cli
import Verif.Model.Plot

/-!
# Model of the command `euphonic-dispersion` (euphonic/cli/dispersion.py)

The chain from the phonon data to the lines drawn.  Not modelled: reading the file (C79), Seekpath, the calculation of
the modes and the reordering (C29), which are parameters; titles, styles and limits of the energy axis.
-/

set_option autoImplicit false

namespace Euphonic.DispCli

open Euphonic.Lattice

/-- Frequencies at q-points, one row of `nModes` frequencies for each q-point. -/
structure Bands where
  qpts : List (V3 ℝ)
  nModes : Nat
  freqs : List (List ℝ)

/-- What is found in the file: force constants with the band path made for them by Seekpath (relative coordinates and
labels) and the modes calculated on a path, or phonons with or without eigenvectors. -/
inductive Data where
  | fc (kpts : List (V3 ℝ)) (labels : List String) (run : List (V3 ℝ) → Except Err Bands)
  | modes (b : Bands)
  | frequencies (b : Bands)

/-- The options that matter here. -/
structure Args where
  reorder : Bool
  btol : ℝ

/-- How to split the spectrum: one of the two arguments of `split`. -/
inductive SplitArgs where
  | indices (l : List Nat)
  | btol (t : ℝ)

/-- Eigenvectors are needed for reordering (euphonic/cli/dispersion.py:18-23). -/
def checkData (a : Args) (d : Data) : Except Err Unit :=
  match d with
  | .frequencies _ => if a.reorder then .error .typeError else .ok ()
  | _ => .ok ()

/-- `_bands_from_force_constants` (euphonic/cli/utils.py:306-343) with `insert_gamma=True`. -/
def bandsFromForceConstants (kpts : List (V3 ℝ)) (labels : List String) (run : List (V3 ℝ) → Except Err Bands) :
    Except Err (Bands × Option (List (Nat × String)) × SplitArgs) := do
  let p := Cli.insertGamma ⟨0, 0, 0⟩ kpts labels
  let b ← run p.1
  return (b, some (Cli.tickLabels p.2), .indices (Cli.breakPoints p.2))

/-- Bands, labels and arguments of `split` (euphonic/cli/dispersion.py:25-34). -/
def bandsOf (a : Args) (d : Data) : Except Err (Bands × Option (List (Nat × String)) × SplitArgs) :=
  match d with
  | .fc kpts labels run => bandsFromForceConstants kpts labels run
  | .modes b => .ok (b, none, .btol a.btol)
  | .frequencies b => .ok (b, none, .btol a.btol)

/-- Positions as integers. -/
def intTicks (t : List (Nat × String)) : List (Int × String) := t.map fun p => ((p.1 : Int), p.2)

/-- `get_dispersion` (euphonic/qpoint_frequencies.py:291-309): one line for each mode, over the distance along the path.
`unit` is the value of the unit of the frequencies (`--energy-unit`, euphonic/cli/dispersion.py:36). -/
noncomputable def getDispersion (recip : M3 ℝ) (table : List (String × V3 ℝ)) (coordText : V3 ℝ → String) (unit : ℝ)
    (b : Bands) : Except Err (Coll1D ℝ Unit) :=
  Coll1D.new (calcAbscissa recip b.qpts) b.qpts.length
    ((List.range b.nModes).map fun m => b.freqs.map fun r => r.getD m 0 * unit)
    (some (intTicks (qpointLabels table coordText b.qpts))) ()

/-- `if x_tick_labels: spectrum.x_tick_labels = x_tick_labels` (euphonic/cli/dispersion.py:47-48). -/
def setLabels (s : Coll1D ℝ Unit) (t : Option (List (Nat × String))) : Coll1D ℝ Unit :=
  match t with
  | some (p :: l) => { s with ticks := some (intTicks (p :: l)) }
  | _ => s

/-- `Spectrum.split` (euphonic/spectra.py:185-219) with one argument, for a collection. -/
noncomputable def splitColl (s : Coll1D ℝ Unit) (a : SplitArgs) : Except Err (List (Coll1D ℝ Unit)) :=
  match a with
  | .indices l => s.splitByIndices (l.map Int.ofNat)
  | .btol t => s.splitByIndices (breakpoints s.x t)

/-- A collection as it is given to `plot_1d`; its lines have no labels. -/
def toLines (s : Coll1D ℝ Unit) : Plot.Lines ℝ Unit := ⟨s.x, s.rows.map fun y => (none, y), s.ticks, (), ()⟩

/-- Reordering if wanted (euphonic/cli/dispersion.py:39-40). -/
def maybeReorder (reorder : Bands → Except Err Bands) (a : Args) (b : Bands) : Except Err Bands :=
  if a.reorder then reorder b else .ok b

/-- `main` (euphonic/cli/dispersion.py:15-62): widths of the subplots and what is drawn on each. -/
noncomputable def dispersionMain (recip : M3 ℝ) (table : List (String × V3 ℝ)) (coordText : V3 ℝ → String) (unit : ℝ)
    (reorder : Bands → Except Err Bands) (a : Args) (d : Data) : Except Err (List ℝ × List (Plot.Drawn ℝ)) := do
  checkData a d
  let p ← bandsOf a d
  let b ← maybeReorder reorder a p.1
  let s ← getDispersion recip table coordText unit b
  let ps ← splitColl (setLabels s p.2.1) p.2.2
  Plot.plot1d (ps.map toLines) .none {}

end Euphonic.DispCli
