import Verif.Model.PhonopyModes

/-!
# Model of `euphonic/brille.py`

Brille itself is a set of parameters: the q-points of a grid made with given arguments, and the interpolation on a
filled grid. Arrays are shapes and values in C order.
-/

set_option autoImplicit false

namespace Euphonic.Brille

open Euphonic.Lattice Euphonic.Phonopy

/-- Values of keyword arguments. -/
inductive Val where
  | bool (b : Bool)
  | int (i : Int)
  | real (x : ℝ)
  | str (s : String)

/-- Keyword arguments as a dictionary. -/
abbrev Kwargs := List (String × Val)

/-- `d[k] = v`: the value of a key that is present is replaced. -/
def setKey (d : Kwargs) (k : String) (v : Val) : Kwargs :=
  if d.any fun p => p.1 = k then d.map fun p => if p.1 = k then (k, v) else p else d ++ [(k, v)]

/-- `d.get(k)`. -/
def getKey (d : Kwargs) (k : String) : Option Val := (d.find? fun p => p.1 = k).map Prod.snd

/-- A filled grid: its q-points, values and vectors. -/
structure Grid where
  rlu : List (V3 ℝ)
  values : Arr ℝ
  vectors : Arr ℂ

/-- A `BrilleInterpolator`: number of atoms of the crystal and grid (the rest of the crystal is passed through). -/
structure Interpolator where
  nAtoms : Nat
  grid : Grid

/-- The constructor (euphonic/brille.py:32-60): values and vectors must have the shapes of the grid. -/
def Interpolator.new (n : Nat) (g : Grid) : Except Err Interpolator :=
  if g.values.shape = [g.rlu.length, 3 * n, 1] ∧ g.vectors.shape = [g.rlu.length, 3 * n, 3 * n] then .ok ⟨n, g⟩
  else .error .valueError

/-- `a.squeeze(axis=-1)`: the last extent must be one. -/
def squeezeLast {α : Type} (a : Arr α) : Except Err (Arr α) :=
  if a.shape.getLast? = some 1 then .ok ⟨a.shape.dropLast, a.data⟩ else .error .valueError

/-- The arguments of `ir_interpolate_at` (euphonic/brille.py:122-124). -/
def interpKwargs (cpuCount : Int) (kwargs : Kwargs) : Kwargs :=
  if kwargs.isEmpty then [("useparallel", .bool true), ("threads", .int cpuCount)] else kwargs

/-- `_br_grid_calculate_phonons` (euphonic/brille.py:116-129); `toMeV` is the factor from hartree to meV. -/
def calculatePhonons (interp : Grid → List (V3 ℝ) → Kwargs → Except Err (Arr ℝ × Arr ℂ)) (toMeV : ℝ) (cpuCount : Int)
    (b : Interpolator) (qpts : List (V3 ℝ)) (kwargs : Kwargs) : Except Err (Arr ℝ × Arr ℂ) := do
  let r ← interp b.grid qpts (interpKwargs cpuCount kwargs)
  let vals ← squeezeLast r.1
  let vecs ← r.2.reshapeTail [3 * b.nAtoms, b.nAtoms, 3]
  return (⟨vals.shape, vals.data.map (· * toMeV)⟩, vecs)

/-- `calculate_qpoint_phonon_modes` (euphonic/brille.py:62-87): q-points, frequencies in meV, eigenvectors. -/
def calculateModes (interp : Grid → List (V3 ℝ) → Kwargs → Except Err (Arr ℝ × Arr ℂ)) (toMeV : ℝ) (cpuCount : Int)
    (b : Interpolator) (qpts : List (V3 ℝ)) (kwargs : Kwargs) : Except Err (List (V3 ℝ) × Arr ℝ × Arr ℂ) := do
  let r ← calculatePhonons interp toMeV cpuCount b qpts kwargs
  return (qpts, r.1, r.2)

/-- `calculate_qpoint_frequencies` (euphonic/brille.py:89-114): q-points and frequencies in meV. -/
def calculateFrequencies (interp : Grid → List (V3 ℝ) → Kwargs → Except Err (Arr ℝ × Arr ℂ)) (toMeV : ℝ)
    (cpuCount : Int) (b : Interpolator) (qpts : List (V3 ℝ)) (kwargs : Kwargs) : Except Err (List (V3 ℝ) × Arr ℝ) := do
  let r ← calculatePhonons interp toMeV cpuCount b qpts kwargs
  return (qpts, r.1)

/-- `int(x)` of a float. -/
noncomputable def pyInt (x : ℝ) : Int := if 0 ≤ x then ⌊x⌋ else ⌈x⌉

/-- The arguments of the grid (euphonic/brille.py:181-183, 206-237): those of the user if any, otherwise from the density or
the number of points and the volume of the irreducible zone.  -/
noncomputable def gridKwargs (gridType : String) (vol : ℝ) (npts : Int) (density : Option ℝ)
    (user : Option Kwargs) : Except Err Kwargs :=
  if gridType = "trellis" then
    match user with
    | some k => .ok k
    | none =>
      match density with
      | some d => if d = 0 then .error .zeroDivisionError
        else .ok [("node_volume_fraction", .real (1 / d)), ("always_triangulate", .bool false)]
      | none => if npts = 0 then .error .zeroDivisionError
        else .ok [("node_volume_fraction", .real (vol / npts)), ("always_triangulate", .bool false)]
  else if gridType = "mesh" then
    match user with
    | some k => .ok k
    | none =>
      match density with
      | some d => if d = 0 then .error .zeroDivisionError
        else .ok [("max_size", .real (1 / d)), ("max_points", .int (pyInt (d * vol)))]
      | none => if npts = 0 then .error .zeroDivisionError
        else .ok [("max_size", .real (vol / npts)), ("max_points", .int npts)]
  else if gridType = "nest" then
    match user with
    | some k => .ok k
    | none =>
      match density with
      | some d => .ok [("number_density", .int (pyInt (d * vol)))]
      | none => .ok [("number_density", .int npts)]
  else .error .valueError

/-- The arguments of the Fourier interpolation (euphonic/brille.py:241-244). -/
def fourierKwargs (user : Option Kwargs) : Kwargs :=
  setKey (setKey (user.getD []) "insert_gamma" (.bool false)) "reduce_qpts" (.bool false)

/-- The arrays stored in the grid (euphonic/brille.py:248-261). -/
def fill (n : Nat) (rlu : List (V3 ℝ)) (freq : Arr ℝ) (evec : Arr ℂ) : Except Err Grid := do
  let f ← freq.reshape (freq.shape ++ [1])
  let e ← evec.reshape (evec.shape.take 2 ++ [3 * n])
  return ⟨rlu, f, e⟩

/-- `from_force_constants` (euphonic/brille.py:131-262): the interpolator and the dictionary `interpolation_kwargs` of
the caller after the call. `makeGrid` gives the q-points of a grid, `calcModes` is
`ForceConstants.calculate_qpoint_phonon_modes` with frequencies in hartree. -/
noncomputable def fromForceConstants (n : Nat) (vol : ℝ) (makeGrid : String → Kwargs → List (V3 ℝ))
    (calcModes : List (V3 ℝ) → Kwargs → Except Err (Arr ℝ × Arr ℂ)) (gridType : String) (npts : Int)
    (density : Option ℝ) (userGrid userInterp : Option Kwargs) : Except Err (Interpolator × Option Kwargs) := do
  let k ← gridKwargs gridType vol npts density userGrid
  let rlu := makeGrid gridType k
  let ph ← calcModes rlu (fourierKwargs userInterp)
  let g ← fill n rlu ph.1 ph.2
  let b ← Interpolator.new n g
  return (b, userInterp.map fun _ => fourierKwargs userInterp)

end Euphonic.Brille
