import Verif.Model.Base
import Mathlib.Algebra.Order.Field.Basic
import Mathlib.Algebra.BigOperators.Fin

/-!
# Model of energy binning: density of states and S(Q,w) maps

Models `QpointFrequencies._calculate_dos`, `calculate_dos`, `calculate_dos_map`
(euphonic/qpoint_frequencies.py:94-289), `QpointPhononModes.calculate_pdos`
(euphonic/qpoint_phonon_modes.py:425-604) and `StructureFactor.calculate_1d_average`,
`calculate_sqw_map`, `_bose_corrected_structure_factor`, `_bose_factor`
(euphonic/structure_factor.py:122-339).

Two-dimensional arrays are functions on `Fin n × Fin m` (the constructors guarantee the shapes, C19);
frequencies are in the internal unit (hartree) and `c > 0` is the value of the unit of the bins in
hartree, so `bins.to('hartree')` is `bins * c` and `1*ureg('hartree').to(bins.units)` is `1 / c`.
Not modelled: rounding, NaN, units that are not proportional to energy.
-/

set_option autoImplicit false

namespace Euphonic.Dos

variable {K : Type} [Field K] [LinearOrder K]

/-- `numpy.digitize(x, bins)` (numpy documentation; used in euphonic/qpoint_frequencies.py:232 and
euphonic/structure_factor.py:266-267): for non-decreasing `bins` the number of edges `≤ x`, for
non-increasing ones the number of edges `> x`, otherwise `ValueError`. -/
def digitize (bins : List K) (x : K) : Except Err Nat :=
  if bins.Pairwise (· ≤ ·) then .ok (bins.countP fun b => decide (b ≤ x))
  else if bins.Pairwise (· ≥ ·) then .ok (bins.countP fun b => decide (x < b))
  else .error .valueError

/-- One addition of `numpy.add.at(a, idx, v)` (euphonic/qpoint_frequencies.py:240). -/
def addAt (a : List K) (iv : Nat × K) : Except Err (List K) :=
  if iv.1 < a.length then .ok (a.modify iv.1 (· + iv.2)) else .error .indexError

/-- `bin_widths = np.ones(len(bins) + 1); bin_widths[1:-1] = np.diff(bins)`
(euphonic/qpoint_frequencies.py:236-237). -/
def paddedWidths (bins : List K) : List K :=
  match bins with
  | [] => [1]
  | _ => [1] ++ npDiff bins ++ [1]

/-- The histogram branch of `_calculate_dos` (euphonic/qpoint_frequencies.py:231-241) for bin edges in
hartree; `mw q m` is `mode_weights_calc`. -/
def histogram (bins : List K) {nq nm : Nat} (freqs : Fin nq → Fin nm → K) (weights : Fin nq → K)
    (mw : Fin nq → Fin nm → K) : Except Err (List K) := do
  let qm := (List.finRange nq).flatMap fun q => (List.finRange nm).map fun m => (q, m)
  let iv ← qm.mapM fun p => do
    let i ← digitize bins (freqs p.1 p.2)
    return (i, weights p.1 * mw p.1 p.2 / (paddedWidths bins).getD i 1)
  let dos ← iv.foldlM addAt (List.replicate (bins.length + 1) 0)
  return (dos.drop 1).dropLast

/-- The adaptive broadening branch with `adaptive_method='reference'`
(euphonic/qpoint_frequencies.py:212-223): `pdf x f s` is `norm.pdf(x, loc=f, scale=s)`, a parameter;
`widths` are already in hartree with the lower limit `wmin` applied here. -/
def adaptiveReference (pdf : K → K → K → K) (bins : List K) {nq nm : Nat}
    (freqs widths : Fin nq → Fin nm → K) (wmin : K) (weights : Fin nq → K)
    (mw : Fin nq → Fin nm → K) : List K :=
  let centres := List.zipWith (fun a d => a + d / 2) bins (npDiff bins)
  let qm := (List.finRange nq).flatMap fun q => (List.finRange nm).map fun m => (q, m)
  qm.foldl (fun dos p => List.zipWith (· + ·) dos (centres.map fun x =>
    pdf x (freqs p.1 p.2) (max (widths p.1 p.2) wmin) * weights p.1 * mw p.1 p.2))
    (List.replicate centres.length 0)

/-- Division by the sum of the weights and conversion to the unit of the bins
(euphonic/qpoint_frequencies.py:243-247): `dos/np.sum(weights)/conv` with `conv = 1 / c`. -/
def normalise (c : K) {nq : Nat} (weights : Fin nq → K) (dos : List K) : List K :=
  dos.map fun d => d / (∑ q, weights q) / (1 / c)

/-- `_calculate_dos` without `mode_widths` (euphonic/qpoint_frequencies.py:160-247); `mode_weights=None`
stands for `3/n_modes` for every mode (ZeroDivisionError without modes). -/
def calculateDos_ (c : K) (bins : List K) {nq nm : Nat} (freqs : Fin nq → Fin nm → K)
    (weights : Fin nq → K) (modeWeights : Option (Fin nq → Fin nm → K)) : Except Err (List K) := do
  let mw ← match modeWeights with
    | some mw => pure mw
    | none => if nm = 0 then throw Err.zeroDivisionError else pure fun _ _ => 3 / (nm : K)
  let dos ← histogram (bins.map (· * c)) freqs weights mw
  return normalise c weights dos

/-- `calculate_dos` without `mode_widths`: the `y_data` (euphonic/qpoint_frequencies.py:152-158). -/
def calculateDos (c : K) (bins : List K) {nq nm : Nat} (freqs : Fin nq → Fin nm → K)
    (weights : Fin nq → K) : Except Err (List K) :=
  calculateDos_ c bins freqs weights none

/-- `calculate_dos` with `mode_widths` and `adaptive_method='reference'`
(euphonic/qpoint_frequencies.py:152-158, 208-223, 243-247). -/
def calculateDosAdaptive (pdf : K → K → K → K) (c : K) (bins : List K) {nq nm : Nat}
    (freqs widths : Fin nq → Fin nm → K) (wmin : K) (weights : Fin nq → K) : List K :=
  normalise c weights (adaptiveReference pdf (bins.map (· * c)) freqs widths wmin weights
    fun _ _ => 3 / (nm : K))

/-- Default weights: `np.full(len(qpts), 1/len(qpts))` (euphonic/qpoint_frequencies.py:75-78). -/
def defaultWeights (nq : Nat) : Fin nq → K := fun _ => 1 / (nq : K)

/-- `_calculate_dos` with `q_idx=i` (euphonic/qpoint_frequencies.py:194-196): frequencies and weight of
one q-point. -/
def calculateDosAt (c : K) (bins : List K) {nq nm : Nat} (freqs : Fin nq → Fin nm → K)
    (weights : Fin nq → K) (i : Fin nq) : Except Err (List K) :=
  calculateDos_ c bins (fun _ : Fin 1 => freqs i) (fun _ => weights i) none

/-- `z_data` of `calculate_dos_map` (euphonic/qpoint_frequencies.py:278-289). -/
def calculateDosMap (c : K) (bins : List K) {nq nm : Nat} (freqs : Fin nq → Fin nm → K)
    (weights : Fin nq → K) : Except Err (List (List K)) :=
  (List.finRange nq).mapM fun i => calculateDosAt c bins freqs weights i

/-- `np.real(np.einsum('ijkl,ijkl->ijk', e, np.conj(e)))/n_atoms`
(euphonic/qpoint_phonon_modes.py:577-581); a complex number is a pair (real, imaginary). -/
def evecWeights {nq nm na : Nat} (e : Fin nq → Fin nm → Fin na → Fin 3 → K × K)
    (q : Fin nq) (m : Fin nm) (a : Fin na) : K :=
  (∑ l, ((e q m a l).1 * (e q m a l).1 + (e q m a l).2 * (e q m a l).2)) / (na : K)

/-- `y_data` of `calculate_pdos`, one line per atom (euphonic/qpoint_phonon_modes.py:582-596);
`cs` are the cross-sections per atom when the DOS is neutron-weighted (`cs[i]*mean(mass)/mass[i]`). -/
def calculatePdos (c : K) (bins : List K) {nq nm na : Nat} (freqs : Fin nq → Fin nm → K)
    (weights : Fin nq → K) (e : Fin nq → Fin nm → Fin na → Fin 3 → K × K) (mass : Fin na → K)
    (cs : Option (Fin na → K)) : Except Err (List (List K)) :=
  (List.finRange na).mapM fun a => do
    let dos ← calculateDos_ c bins freqs weights (some fun q m => evecWeights e q m a)
    match cs with
    | none => return dos
    | some s => return dos.map (· * (s a * ((∑ b, mass b) / (na : K)) / mass a))

/-- Outcome of the temperature logic of `_bose_factor` (euphonic/structure_factor.py:316-329): the
temperature that is used (kelvin), `valueError` for conflicting ones, and `none` for
`NoTemperatureError`.  `np.isclose(given, stored)`: `|given - stored| ≤ 1e-8 + 1e-5 |stored|`. -/
def boseTemperature (stored given : Option K) : Except Err (Option K) :=
  match stored with
  | some s => match given with
    | some g => if |g - s| ≤ 1 / 10 ^ 8 + 1 / 10 ^ 5 * |s| then .ok (some s) else .error .valueError
    | none => .ok (some s)
  | none => .ok given

/-- Population factor of a mode (euphonic/structure_factor.py:330-338); `exp` is a parameter and `kB`
Boltzmann's constant in hartree/K. -/
def boseFactor (exp : K → K) (kB : K) (temp f : K) : K :=
  if 0 < temp then 1 / (exp (|f| / (kB * temp)) - 1) else 0

/-- The temperature whose population factor is applied, `none` if none is
(euphonic/structure_factor.py:258-264). -/
def usedTemperature (calcBose : Bool) (stored given : Option K) : Except Err (Option K) :=
  if calcBose then boseTemperature stored given else .ok none

/-- Intensities on the loss and gain side (euphonic/structure_factor.py:256-264). -/
def intensities (exp : K → K) (kB : K) (t : Option K) (f s : K) : K × K :=
  match t with
  | some t => ((1 + boseFactor exp kB t f) * s, boseFactor exp kB t f * s)
  | none => (s, s)

/-- One row of `_bose_corrected_structure_factor` (euphonic/structure_factor.py:246-289) for one
q-point and the temperature `t` in use: all `np.add.at` of the loss side come first, then those of the
gain side; `sfConv` is `1*ureg('bohr**2').to(structure_factors_unit)`. -/
def sqwRow (exp : K → K) (kB c sfConv : K) (bins : List K) (t : Option K) {nm : Nat}
    (f s : Fin nm → K) : Except Err (List K) := do
  let e := bins.map (· * c)
  let p ← (List.finRange nm).mapM fun m => do
    return (← digitize e (f m), (intensities exp kB t (f m) (s m)).1)
  let n ← (List.finRange nm).mapM fun m => do
    return (← digitize e (-(f m)), (intensities exp kB t (f m) (s m)).2)
  let row ← p.foldlM addAt (List.replicate (bins.length + 1) 0)
  let row ← n.foldlM addAt row
  let row := List.zipWith (· / ·) row (paddedWidths e)
  return (row.drop 1).dropLast.map fun v => v * sfConv / (1 / c)

/-- Some population factor is a division by zero (euphonic/structure_factor.py:335), as for a mode of exactly zero frequency:
numpy gives an infinity, and the bin of the mode is infinite or NaN. -/
def BoseDiverges (exp : K → K) (kB : K) (t : Option K) {nq nm : Nat} (f : Fin nq → Fin nm → K) : Prop :=
  match t with
  | some t => 0 < t ∧ ∃ q m, exp (|f q m| / (kB * t)) - 1 = 0
  | none => False

instance (exp : K → K) (kB : K) (t : Option K) {nq nm : Nat} (f : Fin nq → Fin nm → K) :
    Decidable (BoseDiverges exp kB t f) := by
  unfold BoseDiverges
  cases t <;> infer_instance

/-- `z_data` of `calculate_sqw_map` (euphonic/structure_factor.py:210-222); `nonFinite` if a population factor diverges. -/
def calculateSqwMap (exp : K → K) (kB c sfConv : K) (bins : List K) (calcBose : Bool)
    (stored given : Option K) {nq nm : Nat} (f s : Fin nq → Fin nm → K) :
    Except Err (List (List K)) := do
  let t ← usedTemperature calcBose stored given
  if BoseDiverges exp kB t f then throw Err.nonFinite
  (List.finRange nq).mapM fun q => sqwRow exp kB c sfConv bins t (f q) (s q)

/-- `y_data` of `calculate_1d_average` (euphonic/structure_factor.py:155-162): `np.average` over the
q-points, which raises `ZeroDivisionError` when the weights add up to zero. -/
def calculate1dAverage (exp : K → K) (kB c sfConv : K) (bins : List K) (calcBose : Bool)
    (stored given : Option K) {nq nm : Nat} (f s : Fin nq → Fin nm → K)
    (selfWeights : Fin nq → K) (weights : Option (Fin nq → K)) : Except Err (List K) := do
  let w := weights.getD selfWeights
  let rows ← calculateSqwMap exp kB c sfConv bins calcBose stored given f s
  if ∑ q, w q = 0 then throw Err.zeroDivisionError
  return (List.range (bins.length - 1)).map fun i =>
    (∑ q, w q * (rows.getD q.val []).getD i 0) / ∑ q, w q

end Euphonic.Dos
