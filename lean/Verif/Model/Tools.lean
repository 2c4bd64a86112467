import Verif.Model.Sampling
import Verif.Model.Brille
import Verif.Model.Cli

/-!
# Model of the small command line tools: `euphonic-optimise-dipole-parameter`, `euphonic-show-sampling`,
`euphonic-brille-convergence` (euphonic/cli/optimise_dipole_parameter.py, show_sampling.py, brille_convergence.py)

Calculations of phonons and elapsed times are parameters.
-/

set_option autoImplicit false

namespace Euphonic.Tools

open Euphonic.Brille Euphonic.Lattice

/-- `if c: raise e`. -/
def refuse (c : Bool) (e : Err) : Except Err Unit := if c then .error e else .ok ()

/-! ## euphonic-optimise-dipole-parameter -/

/-- `np.arange(start, stop, step)` of floats. -/
noncomputable def arange (start stop step : ℝ) : Except Err (List ℝ) :=
  if step = 0 then .error .zeroDivisionError
  else .ok ((List.range ⌈(stop - start) / step⌉.toNat).map fun i : Nat => start + i * step)

/-- `np.argmin`: the first index of the smallest value. -/
noncomputable def argmin (l : List ℝ) : Except Err Nat :=
  match l with
  | [] => .error .valueError
  | v :: vs => .ok ((v :: vs).findIdx fun x => decide (x = vs.foldl min v))

/-- A call of `calculate_qpoint_phonon_modes`: the number of q-points and the keyword arguments. -/
structure Call where
  npts : Nat
  dipole : ℝ
  kwargs : Kwargs

/-- The two calls for one value (euphonic/cli/optimise_dipole_parameter.py:96-116): a keyword given twice raises
`TypeError`. `elapsed` gives the time of a call; the number says which call it is. -/
noncomputable def timeOne (elapsed : Nat → Call → Except Err ℝ) (n : Nat) (kwargs : Kwargs) (i : Nat) (d : ℝ) :
    Except Err (ℝ × ℝ) := do
  refuse (getKey kwargs "dipole_parameter").isSome .typeError
  let t ← elapsed (2 * i) ⟨1, d, kwargs⟩
  refuse (getKey kwargs "reduce_qpts").isSome .typeError
  let t' ← elapsed (2 * i + 1) ⟨n, d, ("reduce_qpts", .bool false) :: kwargs⟩
  refuse (decide (n = 0)) .zeroDivisionError
  return (t, t' / n)

/-- What is returned (euphonic/cli/optimise_dipole_parameter.py:129-130). -/
structure Optimum where
  best : ℝ
  init : ℝ
  perQpt : ℝ
  all : List ℝ
  allInit : List ℝ
  allPerQpt : List ℝ

/-- `calculate_optimum_dipole_parameter` (euphonic/cli/optimise_dipole_parameter.py:71-130); `n` is not negative. -/
noncomputable def optimise (elapsed : Nat → Call → Except Err ℝ) (isFc : Bool) (lo hi step : ℝ) (n : Nat)
    (kwargs : Kwargs) : Except Err Optimum := do
  let ds ← arange lo (hi + step / 100) step
  refuse (!isFc) .typeError
  let ts ← ds.zipIdx.mapM fun p => timeOne elapsed n kwargs p.2 p.1
  let opt ← argmin (ts.map Prod.snd)
  return ⟨ds.getD opt 0, (ts.map Prod.fst).getD opt 0, (ts.map Prod.snd).getD opt 0, ds, ts.map Prod.fst, ts.map Prod.snd⟩

/-! ## euphonic-show-sampling -/

/-- Points in the plane or in space (euphonic/cli/show_sampling.py:34-38): a figure with axes of the given number. -/
structure Scatter where
  dim : Nat
  points : List (List ℝ)

/-- `int(np.ceil(np.sqrt(npts)))` (euphonic/cli/show_sampling.py:45). -/
noncomputable def squareSide (npts : Nat) : Nat := ⌈Real.sqrt (npts : ℝ)⌉₊

/-- Coordinates of a point in the plane. -/
def flat (p : ℝ × ℝ) : List ℝ := [p.1, p.2]

/-- Coordinates of a point in space. -/
def solid (v : V3 ℝ) : List ℝ := [v.x, v.y, v.z]

/-- The points and the axes for each choice (euphonic/cli/show_sampling.py:34-106); `jitter` holds the random numbers if
`--jitter` is given, `phi` is the number of `recurrence_sequence` for an order. -/
noncomputable def samples (phi : Nat → ℝ) (npts : Nat) (sampling : String) (jitter : Sampling.Jitter)
    (ringJitter : Nat → Sampling.Jitter) (rnd : Nat → ℝ × ℝ) : Except Err Scatter :=
  match sampling with
  | "golden-square" => (Sampling.goldenSquare npts true jitter).map fun l => ⟨2, l.map flat⟩
  | "regular-square" =>
    (Sampling.regularSquare (squareSide npts) (squareSide npts) true jitter).map fun l => ⟨2, l.map flat⟩
  | "golden-sphere" => (Sampling.goldenSphere npts true jitter).map fun l => ⟨3, l.map solid⟩
  | "recurrence-square" => .ok ⟨2, Sampling.recurrenceSequence npts 2 (phi 2)⟩
  | "spherical-polar-grid" =>
    (Sampling.sphericalPolarGrid (Sampling.checkGridpts npts * 2) (Sampling.checkGridpts npts) true jitter).map
      fun l => ⟨3, l.map solid⟩
  | "sphere-from-square-grid" =>
    (Sampling.sphereFromSquareGrid (Sampling.checkGridpts npts * 2) (Sampling.checkGridpts npts) true jitter).map
      fun l => ⟨3, l.map solid⟩
  | "spherical-polar-improved" => (Sampling.sphericalPolarImproved npts true ringJitter).map fun l => ⟨3, l.map solid⟩
  | "random-sphere" => .ok ⟨3, (Sampling.randomSphere npts true rnd).map solid⟩
  | "recurrence-cube" => .ok ⟨3, Sampling.recurrenceSequence npts 3 (phi 3)⟩
  | _ => .error .valueError

/-- `main` (euphonic/cli/show_sampling.py:30-108): `ax.scatter(*zip(*[]))` lacks its arguments. -/
noncomputable def showSampling (phi : Nat → ℝ) (npts : Nat) (sampling : String) (jitter : Sampling.Jitter)
    (ringJitter : Nat → Sampling.Jitter) (rnd : Nat → ℝ × ℝ) : Except Err Scatter := do
  let s ← samples phi npts sampling jitter ringJitter rnd
  if s.points.isEmpty then .error .typeError else .ok s

/-! ## euphonic-brille-convergence -/

/-- What is used of a calculation at the sampled q-points: all frequencies and structure factors in C order, the average
over the q-points and the map for bins. -/
structure Modes where
  freqs : List ℝ
  sf : List ℝ
  average : List ℝ → Except Err (List ℝ)
  map : List ℝ → Except Err (List (List ℝ))

/-- An interpolator made with a grid: the number of its q-points, the volume of the zone, the calculation. -/
structure Interp where
  npts : Nat
  vol : ℝ
  run : List (List ℝ) → Kwargs → Except Err Modes

/-- `_brille_calc_modes_kwargs` (euphonic/cli/utils.py:435-448): the namespace must have `n_threads`. -/
def brilleKwargs (kwargs : List (String × Option Val)) : Except Err Kwargs :=
  match (kwargs.find? fun p => p.1 = "n_threads").map Prod.snd with
  | none => .error .attributeError
  | some none => .ok []
  | some (some (.int n)) => .ok [("useparallel", .bool (decide (n > 1))), ("threads", .int n)]
  | some (some _) => .error .typeError

/-- `--brille-npts` or `--brille-npts-density`: a number or a list of numbers. -/
inductive Setting where
  | one (i : Int)
  | many (l : List Int)

/-- `for brille_param_i in brille_params` (euphonic/cli/brille_convergence.py:111). -/
def Setting.iter : Setting → Except Err (List Int)
  | .one _ => .error .typeError
  | .many l => .ok l

/-- Difference of arrays of the same shape. -/
noncomputable def minus (a b : List ℝ) : Except Err (List ℝ) :=
  if a.length = b.length then .ok (List.zipWith (· - ·) a b) else .error .valueError

/-- Two lines in the axes of an intensity plot: the intensities interpolated and what they differ by
(`plot_to_intensity_axes`, euphonic/cli/brille_convergence.py:189-196). -/
structure Comparison where
  line : List ℝ
  eps : List ℝ

/-- What is added to the figures for one grid (euphonic/cli/brille_convergence.py:111-160). -/
structure Panel where
  npts : Nat
  density : Int
  freq : List (ℝ × ℝ)
  sf : List (ℝ × ℝ × ℝ)
  average : Comparison
  slices : List Comparison

/-- All figures: the intensities of the Fourier interpolation and the panels. -/
structure Figures where
  bins : List ℝ
  average : List ℝ
  slices : List (List ℝ)
  panels : List Panel

/-- Options (euphonic/cli/brille_convergence.py:27-42); the width is one number. -/
structure Args where
  npts : Nat
  gridType : String
  brilleNpts : Setting
  brilleDensity : Option Setting
  n : Nat
  width : Option ℝ
  ebins : Nat
  eMin : Option ℝ
  eMax : Option ℝ
  kwargs : List (String × Option Val)

/-- What the library provides: the Fourier interpolation, Brille interpolators for a type of grid, either a density or
a number of points and the keyword arguments of the calculations they are made from, and broadening of a line or of all rows of a map over bins. -/
structure Lib where
  fourier : List (List ℝ) → List (String × Option Val) → Except Err Modes
  brille : String → Bool → Int → List (String × Option Val) → Except Err Interp
  broaden : ℝ → List ℝ → List ℝ → Except Err (List ℝ)
  broadenMap : ℝ → List ℝ → List (List ℝ) → Except Err (List (List ℝ))

/-- The average over all q-points, broadened (euphonic/cli/brille_convergence.py:59-61, 122-125). -/
def averageOf (b : Lib) (width : Option ℝ) (bins : List ℝ) (m : Modes) : Except Err (List ℝ) := do
  let l ← m.average bins
  match width with
  | none => .ok l
  | some w => b.broaden w bins l

/-- The rows of the map, broadened (euphonic/cli/brille_convergence.py:90-93, 152-155). -/
def mapOf (b : Lib) (width : Option ℝ) (bins : List ℝ) (m : Modes) : Except Err (List (List ℝ)) := do
  let l ← m.map bins
  match width with
  | none => .ok l
  | some w => b.broadenMap w bins l

/-- `z_data[idx + 1]` (euphonic/cli/brille_convergence.py:96, 158). -/
def slice (z : List (List ℝ)) (i : Nat) : Except Err (List ℝ) :=
  match z[i + 1]? with
  | some r => .ok r
  | none => .error .indexError

/-- The slices at single q-points (euphonic/cli/brille_convergence.py:89-101, 151-158). -/
def slicesOf (b : Lib) (a : Args) (bins : List ℝ) (m : Modes) : Except Err (List (List ℝ)) :=
  if a.n > 0 then do
    let z ← mapOf b a.width bins m
    (List.range a.n).mapM (slice z)
  else .ok []

/-- `plot_to_intensity_axes` (euphonic/cli/brille_convergence.py:189-196). -/
noncomputable def compare (ref line : List ℝ) : Except Err Comparison := do
  let e ← minus line ref
  return ⟨line, e⟩

/-- One pass of the loop (euphonic/cli/brille_convergence.py:111-160); `int(npts / vol)` truncates, a volume is positive. -/
noncomputable def panel (b : Lib) (a : Args) (qpts : List (List ℝ)) (bk : Kwargs) (bins : List ℝ) (m : Modes)
    (avg : List ℝ) (sl : List (List ℝ)) (byDensity : Bool) (p : Int) : Except Err Panel := do
  let i ← b.brille a.gridType byDensity p a.kwargs
  let m' ← i.run qpts bk
  let avg' ← averageOf b a.width bins m'
  let ef ← minus m'.freqs m.freqs
  let es ← minus m'.sf m.sf
  let c ← compare avg avg'
  let sl' ← slicesOf b a bins m'
  let cs ← (List.zip sl sl').mapM fun s => compare s.1 s.2
  return ⟨i.npts, ⌊(i.npts : ℝ) / i.vol⌋, List.zip m.freqs ef, List.zip m.freqs (List.zip m.sf es), c, cs⟩

/-- `check_brille_settings` (euphonic/cli/brille_convergence.py:27-171); `phi` as in `recurrence_sequence`, `room` is 1e-5
meV in the unit of `--energy-unit`. -/
noncomputable def convergence (b : Lib) (phi room : ℝ) (isFc : Bool) (a : Args) : Except Err Figures := do
  refuse (!isFc) .typeError
  let bk ← brilleKwargs a.kwargs
  let qpts := Sampling.recurrenceSequence a.npts 3 phi
  let m ← b.fourier qpts a.kwargs
  let bins ← Cli.energyBins m.freqs (a.ebins + 1) a.eMin a.eMax (105 / 100) room
  let avg ← averageOf b a.width bins m
  let sl ← slicesOf b a bins m
  let ps ← (a.brilleDensity.getD a.brilleNpts).iter
  let panels ← ps.mapM (panel b a qpts bk bins m avg sl a.brilleDensity.isSome)
  return ⟨bins, avg, sl, panels⟩

end Euphonic.Tools
