import Mathlib.Analysis.SpecialFunctions.Trigonometric.Basic
import Mathlib.Analysis.Complex.Norm
import Mathlib.Algebra.Order.Floor.Ring
import Mathlib.Data.List.MinMax
import Verif.Model.Base

/-!
# Model of the kinematic constraints (euphonic/spectra.py:1971-2084)

Magnitudes are real numbers, all quantities in the units of the comparison (meV and 1/angstrom); the checks of
units (euphonic/spectra.py:2001-2014) are not modelled.  `NaN` is `none`.
-/

set_option autoImplicit false

namespace Euphonic.Kinematics

/-- `limiting_values` of `_get_cos_range` (euphonic/spectra.py:2076-2083) for angles `p` and `q`. -/
noncomputable def limitingValues (p q : ℝ) : List ℝ :=
  let shift : ℤ := ⌊min p q / (2 * Real.pi)⌋
  let lower := min p q - shift * (2 * Real.pi)
  let upper := max p q - shift * (2 * Real.pi)
  [Real.cos p, Real.cos q] ++
    (if lower < Real.pi ∧ Real.pi < upper then [-1] else []) ++
    (if lower < 2 * Real.pi ∧ 2 * Real.pi < upper then [1] else [])

/-- `_get_cos_range` (euphonic/spectra.py:2066-2084): maximum and minimum of the list. -/
noncomputable def cosRange (p q : ℝ) : ℝ × ℝ :=
  let l := limitingValues p q
  (l.foldr max (Real.cos p), l.foldr min (Real.cos p))

/-- `np.sqrt` of a complex number. -/
noncomputable def csqrt (z : ℂ) : ℂ :=
  ⟨Real.sqrt ((‖z‖ + z.re) / 2), (if z.im < 0 then -1 else 1) * Real.sqrt ((‖z‖ - z.re) / 2)⟩

/-- Square root of a real number as a complex one: `np.sqrt(x, dtype=complex)`
(euphonic/spectra.py:2048-2049). -/
noncomputable def rsqrt (x : ℝ) : ℂ := csqrt (x : ℂ)

/-- One of the `q_bounds` (euphonic/spectra.py:2045-2050) before values are replaced. -/
noncomputable def qBoundC (k2i k2f c : ℝ) : ℂ := csqrt ((k2i + k2f : ℝ) - 2 * (c : ℂ) * rsqrt (k2i * k2f))

open Classical in
/-- `q_bounds` for one energy (euphonic/spectra.py:2045-2053), first and last; `none` stands for the infinite
values that exclude everything. -/
noncomputable def qBounds (k2i k2f : ℝ) (c : ℝ × ℝ) : Option (ℝ × ℝ) :=
  let b0 := qBoundC k2i k2f c.1
  let b1 := qBoundC k2i k2f c.2
  if b0.im ≠ 0 ∨ b1.im ≠ 0 then none else some (b0.re, b1.re)

open Classical in
/-- `mask` (euphonic/spectra.py:2055-2058) for a bin with x edges `a`, `b`. -/
noncomputable def masked (bounds : Option (ℝ × ℝ)) (a b : ℝ) : Bool :=
  match bounds with
  | none => true
  | some (q0, q1) => decide (b < q0 ∨ a > q1)

/-- Incident and final energies for an energy transfer (euphonic/spectra.py:2019-2031). -/
def energies (ei ef : Option ℝ) : Except Err (ℝ → ℝ × ℝ) :=
  match ei, ef with
  | none, some ef => .ok fun w => (w + ef, ef)
  | some ei, none => .ok fun w => (ei, ei - w)
  | _, _ => .error .valueError

/-- `apply_kinematic_constraints` (euphonic/spectra.py:1971-2063): `c` is `momentum2_to_energy`, `xEdges` and
`yCentres` the edges and centres of the bins, `z` the data (rows belong to x bins). -/
noncomputable def applyConstraints {K : Type} (c : ℝ) (xEdges yCentres : List ℝ) (z : List (List K))
    (ei ef : Option ℝ) (angle : ℝ × ℝ) : Except Err (List (List (Option K))) := do
  let e ← energies ei ef
  let cosines := cosRange (angle.1 * Real.pi / 180) (angle.2 * Real.pi / 180)
  let bounds := yCentres.map fun w => qBounds ((e w).1 / c) ((e w).2 / c) cosines
  return (List.zip (List.zip xEdges xEdges.tail) z).map fun r =>
    (List.zip bounds r.2).map fun s => if masked s.1 r.1.1 r.1.2 = true then none else some s.2

end Euphonic.Kinematics
