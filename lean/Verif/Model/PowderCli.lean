import Verif.Model.Cli
import Verif.Model.Powder
import Verif.Model.Dos
import Verif.Model.DosCli
import Verif.Model.BroadenMap
import Verif.Model.Kinematics
import Verif.Model.Plot

/-!
# Model of the command `euphonic-powder-map` (euphonic/cli/powder_map.py)

The chain from force constants to the image drawn.  Not modelled: reading the file (C79), the calculation of modes, of
the projected density of states (C22) and of the structure factor with its Debye-Waller factor (C24-C26), which are
parameters; Brille (C108); titles, styles and the text boxes.
-/

set_option autoImplicit false

namespace Euphonic.PowderCli

open Euphonic.Lattice

/-- The options that matter here (euphonic/cli/powder_map.py:37-76, euphonic/cli/utils.py:576-820). Quantities are in
the units of `--energy-unit` and `--length-unit`; `npts` and `ebins` are not negative. -/
structure Args where
  weighting : String
  /-- `--pdos` takes one species here (euphonic/cli/utils.py:585-587). -/
  pdos : Option String
  temperature : Option ℝ
  qMin : ℝ
  qMax : ℝ
  qSpacing : ℝ
  npts : Nat
  nptsDensity : Option Int
  nptsMin : Int
  nptsMax : Int
  sampling : Sampling.Method
  ebins : Nat
  eMin : Option ℝ
  eMax : Option ℝ
  eI : Option ℝ
  eF : Option ℝ
  angleRange : ℝ × ℝ
  qBroadening : Option (List ℝ)
  energyBroadening : Option (List ℝ)
  shape : String
  scale : Option ℝ
  vmin : Option ℝ
  vmax : Option ℝ

/-- Random numbers drawn for one sphere. -/
structure Draws where
  jitter : Sampling.Jitter
  ringJitter : Nat → Sampling.Jitter
  rnd : Nat → ℝ × ℝ

/-- What is used of the force constants: cell vectors, the number of modes, frequencies (in hartree) at q-points, the
projected density of states at q-points for a weighting and bins, and the average of the structure factor at q-points for
a temperature (with the Debye-Waller factor of that temperature) and bins. -/
structure Fc where
  cell : M3 ℝ
  nModes : Nat
  freqs : List (V3 ℝ) → Except Err (List (List ℝ))
  pdos : Option (List Char) → List (V3 ℝ) → List ℝ → Except Err (MColl String ℝ)
  sqw : Option ℝ → List (V3 ℝ) → List ℝ → Except Err (List ℝ)

/-- What a file may contain. -/
inductive Data where
  | fc (f : Fc)
  | other

/-- Conversions: `energy` from hartree to `--energy-unit`, `room` is 1e-5 meV in that unit, `recip` from the inverse of
`--length-unit` to the unit of the reciprocal cell, `momentum` is the energy divided by the squared momentum in the units
of the options (`momentum2_to_energy`, euphonic/spectra.py:2016-2017). -/
structure Units where
  energy : ℝ
  room : ℝ
  recip : ℝ
  momentum : ℝ

/-- The checks of the data and of `--pdos` (euphonic/cli/powder_map.py:124-130). -/
def checkData (a : Args) : Data → Except Err Fc
  | .other => .error .typeError
  | .fc f => if a.pdos.isSome ∧ a.weighting = "coherent" then .error .valueError else .ok f

/-- `emax` (euphonic/cli/powder_map.py:157-160). -/
def emax (a : Args) : Option ℝ :=
  if a.eI.isSome ∧ a.eMax = none then a.eI else a.eMax

/-- The energy bins (euphonic/cli/powder_map.py:153-164). -/
noncomputable def bins (u : Units) (a : Args) (f : Fc) : Except Err (List ℝ) := do
  let r ← f.freqs [⟨0, 0, 1 / 2⟩]
  Cli.energyBins (r.flatten.map (· * u.energy)) (a.ebins + 1) a.eMin (emax a) (12 / 10) u.room

/-- `npts` (euphonic/cli/powder_map.py:186-191); a negative number, which `np.arange` treats as none, is zero. -/
noncomputable def npts (a : Args) (q : ℝ) : Nat :=
  match a.nptsDensity with
  | some d => (Cli.sphereNpts (d : ℝ) a.nptsMin a.nptsMax q).toNat
  | none => a.npts

/-- `'dos' in args.weighting`: the weightings that the parser accepts with this property
(euphonic/cli/utils.py:496-498, 592-602). -/
def dosLike (w : String) : Bool :=
  w ∈ ["dos", "coherent-dos", "incoherent-dos", "coherent-plus-incoherent-dos"]

/-- `spectrum_1d.y_data` as it is assigned to a row of `z_data` (euphonic/cli/powder_map.py:217): an array with one line is
as good as the line, more lines do not fit. -/
def rowOf : MSpec String ℝ ⊕ MColl String ℝ → Except Err (List ℝ)
  | .inl s => .ok s.y
  | .inr c => match c.rows with
    | [r] => .ok r
    | _ => .error .valueError

/-- `sample_sphere_dos` with given bins (euphonic/powder.py:86-98) for the q-points of the sphere. -/
noncomputable def dosRow (u : Units) (f : Fc) (bins : List ℝ) (qpts : List (V3 ℝ)) : Except Err (List ℝ) := do
  let r ← f.freqs qpts
  Dos.calculateDos (1 / u.energy) bins (fun (q : Fin qpts.length) (m : Fin f.nModes) => (r.getD q.val []).getD m.val 0)
    (Dos.defaultWeights qpts.length)

/-- `_arrange_pdos_groups(sample_sphere_pdos(...), args.pdos)` (euphonic/cli/powder_map.py:199-206,
euphonic/powder.py:191-200). -/
noncomputable def pdosRow (a : Args) (f : Fc) (bins : List ℝ) (qpts : List (V3 ℝ)) : Except Err (List ℝ) := do
  let w ← Cli.pdosWeighting a.weighting.toList
  let c ← f.pdos w qpts bins
  rowOf (← Cli.arrangePdos "Total" c (a.pdos.map fun s => [s]))

/-- One pass of the loop over the spheres (euphonic/cli/powder_map.py:183-217). -/
noncomputable def row (u : Units) (a : Args) (f : Fc) (bins : List ℝ) (d : Draws) (q : ℝ) : Except Err (List ℝ) := do
  let qpts ← Powder.sphereQptsFrac (npts a q) a.sampling d.jitter d.ringJitter d.rnd q u.recip f.cell
  if a.weighting = "dos" ∧ a.pdos = none then dosRow u f bins qpts
  else if dosLike a.weighting then pdosRow a f bins qpts
  else f.sqw a.temperature qpts bins

/-- All rows (euphonic/cli/powder_map.py:149, 181-219): if there is no sphere, `npts` is not defined when it is printed; a
negative number of spheres is refused by `np.empty`. -/
noncomputable def rows (u : Units) (a : Args) (f : Fc) (edges bins : List ℝ) (d : Nat → Draws) :
    Except Err (List (List ℝ)) :=
  if Cli.nQBins a.qMin a.qMax a.qSpacing < 0 then .error .valueError
  else do
    let r ← (List.range (edges.length - 1)).mapM fun i => row u a f bins (d i) ((edges.getD i 0 + edges.getD (i + 1) 0) / 2)
    if r.isEmpty then .error .unboundLocalError else .ok r

/-- One of the widths of `_get_broaden_kwargs` (euphonic/cli/powder_map.py:91-111): one number is a width, more are the
coefficients of a polynomial. -/
noncomputable def widthOf : Option (List ℝ) → Broaden.Width
  | none => .none
  | some [] => .none
  | some [w] => .fixed w
  | some cs => .fn (DosCli.polyEval cs)

/-- The value in row `i` and column `j` of a list of rows. -/
def entry (z : List (List ℝ)) (i j : Nat) : ℝ := (z.getD i []).getD j 0

/-- Broadening (euphonic/cli/powder_map.py:224-230) with the default options of `Spectrum2D.broaden`
(euphonic/spectra.py:1514-1525).  `coeffs` as in `Broaden.widthInterpolated`. -/
noncomputable def broaden (coeffs : ℝ → List ℝ) (a : Args) (x y : List ℝ) (z : List (List ℝ)) :
    Except Err (List (List ℝ)) :=
  if a.energyBroadening.isSome || a.qBroadening.isSome then do
    let r ← Broaden.broadenMap ⟨coeffs, "fwhm", a.shape, "cheby-log", 1 / 100⟩ none none none (n := z.length)
      (m := a.ebins) x y (widthOf a.qBroadening) (widthOf a.energyBroadening) fun i j => entry z i.val j.val
    return List.ofFn fun i => List.ofFn fun j => r i j
  else .ok z

/-- Kinematic constraints (euphonic/cli/powder_map.py:232-238); a value that is not a number is `none`. -/
noncomputable def constrain (u : Units) (a : Args) (x y : List ℝ) (z : List (List ℝ)) :
    Except Err (List (List (Option ℝ))) :=
  if a.eI = none ∧ a.eF = none then .ok (z.map fun r => r.map some)
  else do
    let xe ← getBinEdges z.length x
    let yc ← getBinCentres a.ebins y
    Kinematics.applyConstraints u.momentum xe yc z a.eI a.eF a.angleRange

/-- `spectrum *= args.scale` (euphonic/cli/powder_map.py:240-241). -/
def scaled (a : Args) (z : List (List (Option ℝ))) : List (List (Option ℝ)) :=
  match a.scale with
  | none => z
  | some k => z.map fun r => r.map fun v => v.map (· * k)

/-- An image some pixels of which may be missing; a limit of the colours is missing if it is not a number. -/
structure Image where
  xs : List ℝ
  ys : List ℝ
  nrow : Nat
  ncol : Nat
  pixel : Fin nrow → Fin ncol → Option ℝ
  norm : Option ℝ × Option ℝ
  xlim : ℝ × ℝ
  ylim : ℝ × ℝ

/-- `np.nanmin`, `np.nanmax`: `ValueError` for an empty array, not a number if there are no numbers. -/
def nanMinMax (l : List (Option ℝ)) : Except Err (Option ℝ × Option ℝ) :=
  if l.isEmpty then .error .valueError
  else match l.filterMap id with
    | [] => .ok (none, none)
    | v :: vs => .ok (some (vs.foldl min v), some (vs.foldl max v))

/-- `plot_2d` for one map without labels (euphonic/plot.py:198-324). -/
noncomputable def draw (a : Args) (x y : List ℝ) (z : List (List (Option ℝ))) : Except Err Image := do
  let mm ← nanMinMax z.flatten
  let xl ← Plot.minMax (← getBinEdges z.length x)
  let yl ← Plot.minMax (← getBinEdges a.ebins y)
  let xs ← getBinCentres z.length x
  let ys ← getBinCentres a.ebins y
  return ⟨xs, ys, a.ebins, z.length, fun j i => (z.getD i.val []).getD j.val none,
    (a.vmin.orElse fun _ => mm.1, a.vmax.orElse fun _ => mm.2), xl, yl⟩

/-- The map before it is drawn (euphonic/cli/powder_map.py:116-241): edges of the |q| bins, of the energy bins, and the
intensities. -/
noncomputable def powderMap (coeffs : ℝ → List ℝ) (u : Units) (d : Nat → Draws) (a : Args) (dat : Data) :
    Except Err (List ℝ × List ℝ × List (List (Option ℝ))) := do
  let f ← checkData a dat
  let x ← Cli.qBinEdges a.qMin a.qMax a.qSpacing
  let y ← bins u a f
  let z ← rows u a f x y d
  let z ← broaden coeffs a x y z
  let z ← constrain u a x y z
  return (x, y, scaled a z)

/-- `main` (euphonic/cli/powder_map.py:116-297). -/
noncomputable def powderMain (coeffs : ℝ → List ℝ) (u : Units) (d : Nat → Draws) (a : Args) (dat : Data) :
    Except Err Image := do
  let m ← powderMap coeffs u d a dat
  draw a m.1 m.2.1 m.2.2

end Euphonic.PowderCli
