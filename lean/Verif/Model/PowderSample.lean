import Verif.Model.Cli
import Verif.Model.Dos
import Verif.Model.Powder

/-!
# Model of the averages over a sphere (euphonic/powder.py)

`sample_sphere_dos`, `sample_sphere_pdos`, `sample_sphere_structure_factor` and `_get_default_bins`.  Not modelled here:
the calculation of modes (C01-C18), of structure factors (C42) and of Debye-Waller exponents (C44), which are
parameters; `get_reference_data` (C57), which replaces a name of a data set by its contents before anything else.  A
sphere without points is refused before modes are calculated (`np.linalg.solve` of an array without columns); the model
refuses it at the same place with the same `ValueError`.
-/

set_option autoImplicit false

namespace Euphonic.PowderSample

open Euphonic.Lattice

/-- What is used of the force constants: the cell vectors, the frequencies (in hartree), eigenvectors and structure
factors (in bohr**2) of the modes at a q-point, the latter with or without a Debye-Waller exponent of type `D`, and the
Debye-Waller exponent for a list of q-points and a temperature. -/
structure Source (D : Type) where
  cell : M3 ℝ
  nAtoms : Nat
  mass : Fin nAtoms → ℝ
  freqs : V3 ℝ → Fin (3 * nAtoms) → ℝ
  evecs : V3 ℝ → Fin (3 * nAtoms) → Fin nAtoms → Fin 3 → ℝ × ℝ
  sf : Option D → V3 ℝ → Fin (3 * nAtoms) → ℝ
  debyeWaller : List (V3 ℝ) → ℝ → Except Err D
  dwTemperature : D → ℝ

/-- `_get_default_bins` (euphonic/powder.py:323-327); `c` is the value of the unit of the frequencies in hartree. -/
def defaultBins {K : Type} [Field K] [LinearOrder K] (c : K) (nbins : Nat) {nq nm : Nat}
    (freqs : Fin nq → Fin nm → K) : Except Err (List K) := do
  let m ← Cli.npMax ((List.finRange nq).flatMap fun q => (List.finRange nm).map fun m => freqs q m / c)
  return Cli.linspace 0 (m * (105 / 100)) (nbins + 1)

/-- The sphere: number of points, method, random numbers, radius. -/
structure Sphere where
  npts : Nat
  method : Sampling.Method
  jitter : Sampling.Jitter
  ringJitter : Nat → Sampling.Jitter
  rnd : Nat → ℝ × ℝ
  modQ : ℝ

/-- The q-points of the sphere (euphonic/powder.py:86-88, 191-193, 306-309); `recip` converts the unit of `mod_q` to the
unit of the reciprocal cell. -/
noncomputable def points {D : Type} (s : Source D) (recip : ℝ) (sp : Sphere) : Except Err (List (V3 ℝ)) := do
  let l ← Powder.sphereQptsFrac sp.npts sp.method sp.jitter sp.ringJitter sp.rnd sp.modQ recip s.cell
  if l.isEmpty then .error .valueError else .ok l

/-- The bins in use with their unit in hartree: those given, or the default ones in the unit `cf` of the frequencies
(euphonic/powder.py:93-94, 196-197, 314-315). -/
noncomputable def binsInUse (cf : ℝ) (given : Option (ℝ × List ℝ)) {nq nm : Nat} (freqs : Fin nq → Fin nm → ℝ) :
    Except Err (ℝ × List ℝ) :=
  match given with
  | some b => .ok b
  | none => do return (cf, ← defaultBins cf 1000 freqs)

/-- `sample_sphere_dos` (euphonic/powder.py:86-96): unit of the bins, bins and `y_data`.  The q-points have equal weights
(`Dos.defaultWeights`). -/
noncomputable def dos {D : Type} (s : Source D) (cf recip : ℝ) (sp : Sphere) (given : Option (ℝ × List ℝ)) :
    Except Err (ℝ × List ℝ × List ℝ) := do
  let l ← points s recip sp
  let f := fun (q : Fin l.length) (m : Fin (3 * s.nAtoms)) => s.freqs l[q] m
  let b ← binsInUse cf given f
  let y ← Dos.calculateDos b.1 b.2 f (Dos.defaultWeights l.length)
  return (b.1, b.2, y)

/-- `sample_sphere_pdos` (euphonic/powder.py:191-200): unit of the bins, bins and one line per atom; `cs` are the
cross-sections per atom for a neutron-weighted density of states (C22). -/
noncomputable def pdos {D : Type} (s : Source D) (cf recip : ℝ) (sp : Sphere) (given : Option (ℝ × List ℝ))
    (cs : Option (Fin s.nAtoms → ℝ)) : Except Err (ℝ × List ℝ × List (List ℝ)) := do
  let l ← points s recip sp
  let f := fun (q : Fin l.length) (m : Fin (3 * s.nAtoms)) => s.freqs l[q] m
  let b ← binsInUse cf given f
  let y ← Dos.calculatePdos b.1 b.2 f (Dos.defaultWeights l.length) (fun q m => s.evecs l[q] m) s.mass cs
  return (b.1, b.2, y)

/-- `np.isclose(dw.temperature, temperature)` (euphonic/powder.py:302), temperatures in kelvin. -/
noncomputable def closeTemp (stored given : ℝ) : Bool :=
  decide (|stored - given| ≤ 1 / 10 ^ 8 + 1 / 10 ^ 5 * |given|)

/-- The Debye-Waller exponent in use (euphonic/powder.py:295-304): `dwSpacing` is in reciprocal length, `conv` converts
the unit of the reciprocal cell to its unit. -/
noncomputable def dwInUse {D : Type} (s : Source D) (conv dwSpacing : ℝ) (temperature : Option ℝ) (dw : Option D) :
    Except Err (Option D) :=
  match temperature, dw with
  | some t, none => do
    let g := mpGridSpec (2 * Real.pi) conv dwSpacing s.cell
    let qpts ← mpGrid ℝ g.1.toNat g.2.1.toNat g.2.2.toNat
    return some (← s.debyeWaller qpts t)
  | some t, some d => if closeTemp (s.dwTemperature d) t then .ok (some d) else .error .valueError
  | none, dw => .ok dw

/-- `sample_sphere_structure_factor` (euphonic/powder.py:295-320): unit of the bins, bins and `y_data`.  The structure
factor carries the temperature of the Debye-Waller exponent (euphonic/qpoint_phonon_modes.py:296-302), which is used
for the Bose factor (`calc_bose=True`, no temperature given).  `kB` and `sfConv` as in `Dos.calculate1dAverage`. -/
noncomputable def structureFactor {D : Type} (s : Source D) (kB sfConv cf recip conv dwSpacing : ℝ)
    (temperature : Option ℝ) (dw : Option D) (sp : Sphere) (given : Option (ℝ × List ℝ)) :
    Except Err (ℝ × List ℝ × List ℝ) := do
  let dw ← dwInUse s conv dwSpacing temperature dw
  let l ← points s recip sp
  let f := fun (q : Fin l.length) (m : Fin (3 * s.nAtoms)) => s.freqs l[q] m
  let b ← binsInUse cf given f
  let y ← Dos.calculate1dAverage Real.exp kB b.1 sfConv b.2 true (dw.map s.dwTemperature) none f
    (fun q m => s.sf dw l[q] m) (Dos.defaultWeights l.length) none
  return (b.1, b.2, y)

end Euphonic.PowderSample
