import Mathlib.Analysis.SpecialFunctions.Trigonometric.Inverse
import Mathlib.NumberTheory.Real.GoldenRatio
import Verif.Model.Base
import Verif.Model.Lattice

/-!
# Model of the sphere samplings (euphonic/sampling.py, euphonic/powder.py:352-392)

Floating point numbers are real numbers here.  Random numbers (`np.random.random`) are a parameter.  A generator
is the list of what it yields, or the exception raised when it is exhausted by `list(...)`.
-/

set_option autoImplicit false

namespace Euphonic.Sampling

open Euphonic.Lattice

/-- Random numbers for jitter: a pair for every index, or no jitter. -/
abbrev Jitter := Option (Nat → ℝ × ℝ)

/-- `(np.random.random(2) - 0.5) * [sx, sy]`, or `(0, 0)`
(euphonic/sampling.py:51-55, 93-97). -/
noncomputable def displacement (jitter : Jitter) (i : Nat) (sx sy : ℝ) : ℝ × ℝ :=
  match jitter with
  | some r => (((r i).1 - 1 / 2) * sx, ((r i).2 - 1 / 2) * sy)
  | none => (0, 0)

/-- `golden_square` (euphonic/sampling.py:18-58); `% 1` is the fractional part.  For `npts = 0` and `offset` the
generator divides by zero. -/
noncomputable def goldenSquare (npts : Nat) (offset : Bool) (jitter : Jitter) : Except Err (List (ℝ × ℝ)) :=
  if npts = 0 ∧ offset = true then .error .zeroDivisionError
  else .ok ((List.range npts).map fun i : Nat =>
    let d := displacement jitter i (1 / Real.sqrt npts) (1 / Real.sqrt npts)
    (Int.fract ((i : ℝ) / npts + d.1 + (if offset then 1 / (2 * (npts : ℝ)) else 0)),
      Int.fract ((i : ℝ) / Real.goldenRatio + d.2)))

/-- `regular_square` (euphonic/sampling.py:61-101): `product` has the second factor run fastest. -/
noncomputable def regularSquare (nRows nCols : Nat) (offset : Bool) (jitter : Jitter) :
    Except Err (List (ℝ × ℝ)) :=
  if nRows = 0 ∨ nCols = 0 then .error .zeroDivisionError
  else
    let sx : ℝ := 1 / nCols
    let sy : ℝ := 1 / nRows
    .ok ((List.range nCols).flatMap fun i : Nat => (List.range nRows).map fun j : Nat =>
      let d := displacement jitter (i * nRows + j) sx sy
      ((i : ℝ) * sx + (if offset then sx / 2 else 0) + d.1, (j : ℝ) * sy + (if offset then sy / 2 else 0) + d.2))

/-- `_spherical_polar_to_cartesian` (euphonic/sampling.py:104-107). -/
noncomputable def toCartesian (phi theta : ℝ) : V3 ℝ :=
  ⟨Real.cos phi * Real.sin theta, Real.sin phi * Real.sin theta, Real.cos theta⟩

/-- `_square_to_spherical_polar` (euphonic/sampling.py:110-114). -/
noncomputable def squareToPolar (p : ℝ × ℝ) : ℝ × ℝ := (2 * Real.pi * p.2, Real.arccos (2 * p.1 - 1))

/-- What the samplings yield (euphonic/sampling.py:148-152 and alike): Cartesian or spherical coordinates. -/
noncomputable def out (cartesian : Bool) (a : ℝ × ℝ) : V3 ℝ :=
  if cartesian then toCartesian a.1 a.2 else ⟨1, a.1, a.2⟩

/-- `golden_sphere` (euphonic/sampling.py:117-152). -/
noncomputable def goldenSphere (npts : Nat) (cartesian : Bool) (jitter : Jitter) : Except Err (List (V3 ℝ)) := do
  let l ← goldenSquare npts true jitter
  return l.map fun p => out cartesian (squareToPolar p)

/-- `sphere_from_square_grid` (euphonic/sampling.py:155-187). -/
noncomputable def sphereFromSquareGrid (nRows nCols : Nat) (cartesian : Bool) (jitter : Jitter) :
    Except Err (List (V3 ℝ)) := do
  let l ← regularSquare nRows nCols true jitter
  return l.map fun p => out cartesian (squareToPolar p)

/-- `np.linspace(a, b, n + 1)[:-1]`. -/
noncomputable def linspaceOpen (a b : ℝ) (n : Nat) : List ℝ :=
  (List.range n).map fun i : Nat => a + (i : ℝ) * ((b - a) / n)

/-- The theta angles (euphonic/sampling.py:222-223, 290-291). -/
noncomputable def thetaSequence (n : Nat) : List ℝ :=
  (linspaceOpen 0 Real.pi n).map (· + Real.pi / (2 * n))

/-- `s[1] - s[0]`. -/
noncomputable def spacing (s : List ℝ) : Except Err ℝ :=
  match s with
  | a :: b :: _ => .ok (b - a)
  | _ => .error .indexError

/-- `spherical_polar_grid` (euphonic/sampling.py:190-237). -/
noncomputable def sphericalPolarGrid (nPhi nTheta : Nat) (cartesian : Bool) (jitter : Jitter) :
    Except Err (List (V3 ℝ)) := do
  let phis := linspaceOpen (-Real.pi) Real.pi nPhi
  let dphi ← spacing phis
  if nTheta = 0 then throw .zeroDivisionError
  let thetas := thetaSequence nTheta
  let dtheta ← spacing thetas
  return (phis.zipIdx.flatMap fun p => thetas.zipIdx.map fun t =>
    let d := displacement jitter (p.2 * nTheta + t.2) dphi dtheta
    out cartesian (p.1 + d.1, t.1 + d.2))

/-- Circumference of ring `k` (euphonic/sampling.py:295). -/
noncomputable def circumference (n k : Nat) : ℝ :=
  2 * Real.pi * |Real.sin ((thetaSequence n).getD k 0)|

/-- `bin_edges[k]` (euphonic/sampling.py:296). -/
noncomputable def ringEdge (n k : Nat) : ℝ := ((List.range k).map (circumference n)).sum

/-- `np.linspace(0, total, npts)` (euphonic/sampling.py:298). -/
noncomputable def ringPoints (n npts : Nat) : List ℝ :=
  (List.range npts).map fun i : Nat => (i : ℝ) * (ringEdge n n / ((npts : ℝ) - 1))

open Classical in
/-- `counts[k]` of `np.histogram` (euphonic/sampling.py:298-299): bins are open at their upper end but for the
last one. -/
noncomputable def ringCount (n npts k : Nat) : Nat :=
  (ringPoints n npts).countP fun p =>
    decide (ringEdge n k ≤ p ∧ (if k + 1 = n then p ≤ ringEdge n (k + 1) else p < ringEdge n (k + 1)))

/-- One ring (euphonic/sampling.py:301-317). -/
noncomputable def ring (cartesian : Bool) (jitter : Nat → Jitter) (dtheta : ℝ) (n npts k : Nat) :
    Except Err (List (V3 ℝ)) := do
  let phis := linspaceOpen (-Real.pi) Real.pi (ringCount n npts k)
  let dphi ← spacing phis
  return phis.zipIdx.map fun p =>
    let d := displacement (jitter k) p.2 dphi dtheta
    out cartesian (p.1 + d.1, (thetaSequence n).getD k 0 + d.2)

/-- `n_theta` (euphonic/sampling.py:287). -/
noncomputable def nTheta (npts : Nat) : Nat := ⌊Real.sqrt (Real.pi / 4 * npts)⌋₊

/-- `spherical_polar_improved` (euphonic/sampling.py:240-320). -/
noncomputable def sphericalPolarImproved (npts : Nat) (cartesian : Bool) (jitter : Nat → Jitter) :
    Except Err (List (V3 ℝ)) := do
  if npts < 6 then throw .valueError
  let n := nTheta npts
  let dtheta ← spacing (thetaSequence n)
  let rings ← (List.range n).mapM (ring cartesian jitter dtheta n npts)
  return rings.flatten

/-- `random_sphere` (euphonic/sampling.py:323-358). -/
noncomputable def randomSphere (npts : Nat) (cartesian : Bool) (rnd : Nat → ℝ × ℝ) : List (V3 ℝ) :=
  (List.range npts).map fun i => out cartesian (squareToPolar (rnd i))

/-- `recurrence_sequence` (euphonic/sampling.py:360-396); `phi` is the number found by `fmin`. -/
noncomputable def recurrenceSequence (npts order : Nat) (phi : ℝ) : List (List ℝ) :=
  (List.range npts).map fun n : Nat => (List.range order).map fun d : Nat => Int.fract ((n : ℝ) * (phi ^ (d + 1))⁻¹)

/-- `n_cols` of `_check_gridpts` (euphonic/powder.py:385-392). -/
noncomputable def checkGridpts (npts : Nat) : Nat := ⌈Real.sqrt ((npts : ℝ) / 2)⌉₊

/-- Names of the samplings. -/
inductive Method where
  | golden | projectedGrid | polarGrid | improved | random
  | unknown
  deriving DecidableEq

/-- `_get_qpts_sphere` (euphonic/powder.py:352-382). -/
noncomputable def qptsSphere (npts : Nat) (m : Method) (jitter : Jitter) (ringJitter : Nat → Jitter)
    (rnd : Nat → ℝ × ℝ) : Except Err (List (V3 ℝ)) :=
  match m with
  | .golden => goldenSphere npts true jitter
  | .projectedGrid => sphereFromSquareGrid (checkGridpts npts * 2) (checkGridpts npts) true jitter
  | .polarGrid => sphericalPolarGrid (checkGridpts npts * 2) (checkGridpts npts) true jitter
  | .improved => sphericalPolarImproved npts true ringJitter
  | .random => .ok (randomSphere npts true rnd)
  | .unknown => .error .valueError

end Euphonic.Sampling
