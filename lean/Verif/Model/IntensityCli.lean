import Verif.Model.DispCli
import Verif.Model.Dos
import Verif.Model.Broaden

/-!
# Model of the command `euphonic-intensity-map` (euphonic/cli/intensity_map.py)

The chain from the phonon data to the images drawn.  Not modelled: reading the file (C79), Seekpath, the calculation of
the modes, and the structure factor with its Debye-Waller factor (C24-C26), which are parameters; titles and styles.
-/

set_option autoImplicit false

namespace Euphonic.IntensityCli

open Euphonic.Lattice Euphonic.DispCli

/-- The options that matter here.  `--q-broadening` takes one number, `--energy-broadening` one or more
(euphonic/cli/utils.py:773-775, 800-814). -/
structure Args where
  coherent : Bool
  temperature : Option ℝ
  btol : ℝ
  ebins : Nat
  eMin : Option ℝ
  eMax : Option ℝ
  qBroadening : Option ℝ
  energyBroadening : Option (ℝ × List ℝ)
  shape : String
  scale : Option ℝ
  vmin : Option ℝ
  vmax : Option ℝ

/-- What is needed of the data (euphonic/cli/intensity_map.py:27-34). -/
def checkData (a : Args) (d : Data) : Except Err Unit :=
  match d with
  | .fc _ _ _ => .ok ()
  | .modes _ => if a.coherent && a.temperature.isSome then .error .typeError else .ok ()
  | .frequencies _ => if a.coherent then .error .typeError else .ok ()

/-- Bands, labels and arguments of `split` (euphonic/cli/intensity_map.py:39-49): for force constants
`_bands_from_force_constants` (euphonic/cli/utils.py:306-343) with `insert_gamma=False`. -/
noncomputable def bandsOf (table : List (String × V3 ℝ)) (coordText : V3 ℝ → String) (a : Args) (d : Data) :
    Except Err (Bands × List (Nat × String) × SplitArgs) :=
  match d with
  | .fc kpts labels run => do
    let b ← run kpts
    return (b, Cli.tickLabels labels, .indices (Cli.breakPoints labels))
  | .modes b => .ok (b, qpointLabels table coordText b.qpts, .btol a.btol)
  | .frequencies b => .ok (b, qpointLabels table coordText b.qpts, .btol a.btol)

/-- The frequencies of all modes in the unit of `--energy-unit` (euphonic/cli/intensity_map.py:50). -/
def displayed (unit : ℝ) (b : Bands) : List ℝ := b.freqs.flatten.map (· * unit)

/-- The intensities (euphonic/cli/intensity_map.py:56-74): one row for each q-point.  `sqw` is the structure factor map
with the Debye-Waller factor at a temperature, if any. -/
noncomputable def intensities (sqw : Option ℝ → Bands → List ℝ → Except Err (List (List ℝ))) (unit : ℝ) (a : Args)
    (b : Bands) (bins : List ℝ) : Except Err (List (List ℝ)) :=
  if a.coherent then sqw a.temperature b bins
  else Dos.calculateDosMap (1 / unit) bins (fun (q : Fin b.qpts.length) (m : Fin b.nModes) =>
    (b.freqs.getD q.val []).getD m.val 0) fun _ => 1

/-- The value in row `i` and column `j` of a list of rows. -/
def entry (z : List (List ℝ)) (i j : Nat) : ℝ := (z.getD i []).getD j 0

/-- Broadening (euphonic/cli/intensity_map.py:76-82): of the numbers given with `--energy-broadening` the first is used. -/
noncomputable def broaden (a : Args) (s : Spec2D ℝ Unit) : Except Err (Spec2D ℝ Unit) :=
  if a.qBroadening.isSome || a.energyBroadening.isSome then do
    let z ← Broaden.broaden2d a.shape (some "convolve") (n := s.z.length) (m := s.nyb) s.x s.y a.qBroadening
      (a.energyBroadening.map Prod.fst) fun i j => entry s.z i.val j.val
    return { s with z := List.ofFn fun i => List.ofFn fun j => z i j }
  else .ok s

/-- `if x_tick_labels: spectrum.x_tick_labels = x_tick_labels` (euphonic/cli/intensity_map.py:88-89). -/
def setLabels (s : Spec2D ℝ Unit) (t : List (Nat × String)) : Spec2D ℝ Unit :=
  if t.isEmpty then s else { s with ticks := some (intTicks t) }

/-- `spectrum *= args.scale` (euphonic/cli/intensity_map.py:91-92). -/
def scaled (a : Args) (s : Spec2D ℝ Unit) : Spec2D ℝ Unit :=
  match a.scale with
  | none => s
  | some k => { s with z := s.z.map fun r => r.map (· * k) }

/-- `Spectrum.split` (euphonic/spectra.py:185-219) with one argument, for a map. -/
noncomputable def splitMap (s : Spec2D ℝ Unit) (a : SplitArgs) : Except Err (List (Spec2D ℝ Unit)) :=
  match a with
  | .indices l => s.splitByIndices (l.map Int.ofNat)
  | .btol t => s.splitByIndices (breakpoints s.x t)

/-- A map as it is given to `plot_2d`. -/
def toMap (s : Spec2D ℝ Unit) : Plot.Map ℝ Unit where
  x := s.x
  y := s.y
  nx := s.z.length
  ny := s.nyb
  z := fun i j => entry s.z i.val j.val
  ticks := s.ticks
  xUnit := ()
  yUnit := ()
  zUnit := ()

/-- `main` (euphonic/cli/intensity_map.py:20-104): widths of the subplots and images.  `unit` is the value of the unit of
the frequencies, `room` is 1e-5 meV in the unit of `--energy-unit`. The map made by `calculate_dos_map` or
`calculate_sqw_map` (euphonic/qpoint_frequencies.py:277-289, euphonic/structure_factor.py:219-222) has the labels of the
q-points. -/
noncomputable def intensityMain (recip : M3 ℝ) (table : List (String × V3 ℝ)) (coordText : V3 ℝ → String) (unit room : ℝ)
    (sqw : Option ℝ → Bands → List ℝ → Except Err (List (List ℝ))) (a : Args) (d : Data) :
    Except Err (List ℝ × List (Plot.Image ℝ)) := do
  checkData a d
  let p ← bandsOf table coordText a d
  let bins ← Cli.energyBins (displayed unit p.1) (a.ebins + 1) a.eMin a.eMax (105 / 100) room
  let rows ← intensities sqw unit a p.1 bins
  let s ← Spec2D.new (calcAbscissa recip p.1.qpts) bins a.ebins rows
    (some (intTicks (qpointLabels table coordText p.1.qpts))) ()
  let s ← broaden a s
  let ps ← splitMap (scaled a (setLabels s p.2.1)) p.2.2
  Plot.plot2d (fun _ _ => 1) (ps.map toMap) a.vmin a.vmax

end Euphonic.IntensityCli
