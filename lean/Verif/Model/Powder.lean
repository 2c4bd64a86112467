import Verif.Model.Sampling
import Mathlib.Analysis.SpecialFunctions.Pow.Real

/-!
# Model of the powder sampling helpers and of mode widths

Models `_qpts_cart_to_frac`, the q-points of `sample_sphere_dos`, `sample_sphere_pdos` and
`sample_sphere_structure_factor` (euphonic/powder.py) and `mode_gradients_to_widths`
(euphonic/util.py:264-299).

Numbers are exact.  A unit enters as the factor that converts it.
-/

set_option autoImplicit false

namespace Euphonic.Powder

open Lattice

/-- `np.linalg.solve(m.T, q)` for one right hand side (used at euphonic/powder.py:349): the solution of
`x m.a + y m.b + z m.c = q` by Cramer's rule; `LinAlgError`, which is a `ValueError`, for a singular
matrix. -/
def solveT {K : Type} [Field K] [DecidableEq K] (m : M3 K) (q : V3 K) : Except Err (V3 K) :=
  if cellVolume m = 0 then .error .valueError
  else .ok ⟨cellVolume ⟨q, m.b, m.c⟩ / cellVolume m, cellVolume ⟨m.a, q, m.c⟩ / cellVolume m,
    cellVolume ⟨m.a, m.b, q⟩ / cellVolume m⟩

/-- `_qpts_cart_to_frac` (euphonic/powder.py:330-349).  `conv` converts the unit of the q-points to the
unit of the reciprocal cell (`.to('dimensionless')`). -/
noncomputable def qptsCartToFrac (conv : ℝ) (qpts : List (V3 ℝ)) (cv : M3 ℝ) : Except Err (List (V3 ℝ)) :=
  (qpts.mapM (solveT (reciprocalCell (2 * Real.pi) cv))).map fun l => l.map (smul conv)

/-- The q-points at which the modes are calculated by the functions that sample a sphere
(euphonic/powder.py:87-89, 191-193, 305-308): unit vectors times `mod_q`, converted to fractional
coordinates. -/
noncomputable def sphereQptsFrac (npts : Nat) (m : Sampling.Method) (jitter : Sampling.Jitter)
    (ringJitter : Nat → Sampling.Jitter) (rnd : Nat → ℝ × ℝ) (modQ conv : ℝ) (cv : M3 ℝ) :
    Except Err (List (V3 ℝ)) := do
  let l ← Sampling.qptsSphere npts m jitter ringJitter rnd
  qptsCartToFrac conv (l.map (smul modQ)) cv

/-- `np.cbrt`. -/
noncomputable def cbrt (x : ℝ) : ℝ :=
  if 0 ≤ x then x ^ ((1 : ℝ) / 3) else -(-x) ^ ((1 : ℝ) / 3)

/-- An array of numbers: its shape and the value for each list of indices. -/
structure NdArray where
  shape : List Nat
  val : List Nat → ℝ

/-- `np.linalg.norm(a, axis=2)` of an array with three components along the last axis. -/
noncomputable def normLast (a : NdArray) : NdArray :=
  ⟨a.shape.take 2, fun i => Real.sqrt (a.val (i ++ [0]) ^ 2 + a.val (i ++ [1]) ^ 2 + a.val (i ++ [2]) ^ 2)⟩

/-- Multiplication of an array by a number. -/
noncomputable def scale (k : ℝ) (a : NdArray) : NdArray := ⟨a.shape, fun i => k * a.val i⟩

/-- `mode_gradients_to_widths` (euphonic/util.py:264-299).  `cg` converts the unit of the gradients to
`hartree*bohr`, `cl` the unit of the cell vectors to `bohr`; `hartree` is `cl/cg` of the unit of the
result.  A cell of zero volume, for which numpy divides by zero with a warning, is not represented
faithfully (theorems assume a volume other than zero). -/
noncomputable def modeGradientsToWidths (cg cl : ℝ) (g : NdArray) (cv : M3 ℝ) : Except Err NdArray := do
  let modg := scale cg g
  let modg ← if modg.shape.length = 3 ∧ modg.shape.getD 2 0 = 3 then .ok (normLast modg)
    else if modg.shape.length ≠ 2 then .error .valueError
    else .ok modg
  let qSpacing := 2 / cbrt ((g.shape.headD 0 : ℝ) * (cl ^ 3 * cellVolume cv))
  return scale (cl / cg) (scale qSpacing modg)

end Euphonic.Powder
