import Verif.Model.Base
import Mathlib.Algebra.Order.Field.Basic
import Mathlib.Algebra.Order.Group.Unbundled.Abs
import Mathlib.Data.Fin.Basic
import Mathlib.Data.List.FinRange

/-!
# Model: casting mode gradients to real numbers

`ForceConstants._calculate_phonons_at_qpts` (euphonic/force_constants.py:717-735). The complex array `rmode_gradients` is
given by its real and imaginary parts `re` and `im`; its indices are (reduced q-point, mode, direction). The units of the
result are left out.
-/

set_option autoImplicit false

namespace Euphonic.GradWarn

variable {K : Type} [Field K] [LinearOrder K] {nr m : Nat}

/-- An index of `rmode_gradients` (euphonic/force_constants.py:722, 728). -/
abbrev Ix (nr m : Nat) := Fin nr × Fin m × Fin 3

/-- The indices of `rmode_gradients` in the order in which `np.where` visits them (euphonic/force_constants.py:719). -/
def indices (nr m : Nat) : List (Ix nr m) :=
  (List.finRange nr).flatMap fun q => (List.finRange m).flatMap fun s => (List.finRange 3).map fun d => (q, s, d)

/-- `np.amax` (euphonic/force_constants.py:718): `ValueError` for an empty array. -/
def amax : List K → Except Err K
  | [] => .error .valueError
  | x :: xs => .ok (xs.foldl max x)

/-- The elements that the warning is about (euphonic/force_constants.py:720): `imag/max_real > 1e-10`. A division by zero
gives infinity, minus infinity or NaN, depending on the sign of the number that is divided. -/
def unexpected (maxReal x : K) : Bool :=
  if maxReal = 0 then decide (0 < x) else decide (1 / 10 ^ 10 < x / maxReal)

/-- What the text of the warning says (euphonic/force_constants.py:725-732): the number of such elements, the size of the
array, some indices and the imaginary parts there, and the largest real part. -/
structure Warning (K : Type) (nr m : Nat) where
  count : Nat
  size : Nat
  at_ : List (Ix nr m)
  values : List K
  maxReal : K
  deriving DecidableEq

/-- The check (euphonic/force_constants.py:718-732). -/
def check (re im : Ix nr m → K) : Except Err (Option (Warning K nr m)) := do
  let maxReal ← amax ((indices nr m).map fun i => |re i|)
  let idx := (indices nr m).filter fun i => unexpected maxReal (im i)
  let nIdx := idx.length
  if nIdx > 0 then
    let nPrint := if nIdx < 5 then nIdx else 5
    return some ⟨nIdx, (indices nr m).length, idx.take nPrint, (idx.map im).take nPrint, maxReal⟩
  else return none

/-- The warning, if any, and the gradients that are returned (euphonic/force_constants.py:717-735); `inv` is `qpts_i`. -/
def castGradients {nq : Nat} (re im : Ix nr m → K) (inv : Fin nq → Fin nr) :
    Except Err (Option (Warning K nr m) × (Fin nq → Fin m → Fin 3 → K)) := do
  let w ← check re im
  return (w, fun q s d => re (inv q, s, d))

end Euphonic.GradWarn
