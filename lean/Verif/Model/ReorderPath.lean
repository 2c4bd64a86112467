import Verif.Model.Lattice
import Verif.Model.Reorder

/-!
# Model of `reorder_frequencies` with its choice of q-points (euphonic/qpoint_phonon_modes.py:81-166)

The matching of the modes of two q-points is in `Verif.Model.Reorder`.  Here it is decided, from the path and the option
`reorder_gamma`, where modes are matched.  Complex numbers are pairs of real numbers.
-/

set_option autoImplicit false

namespace Euphonic.Reorder

open Euphonic.Lattice

/-- `np.logical_not(direction_changed(qpts))` (euphonic/qpoint_phonon_modes.py:113-114, euphonic/util.py:20-51). -/
noncomputable def directionKept : List (V3 ℝ) → List Bool
  | a :: b :: c :: l => (!dirChanged (sub b a) (sub c b)) :: directionKept (b :: c :: l)
  | _ => []

/-- `a[idx] = False` for a list of indices. -/
def clearAt (a : List Bool) (idx : List Nat) : List Bool := idx.foldl (fun a i => a.set i false) a

/-- `np.where(is_gamma(qpts))[0]` (euphonic/qpoint_phonon_modes.py:117). -/
noncomputable def gammaAt (qpts : List (V3 ℝ)) : List Nat :=
  (List.range qpts.length).filter fun i => isGamma (qpts.getD i ⟨0, 0, 0⟩)

/-- `calc_reorder` (euphonic/qpoint_phonon_modes.py:111-121); entry `i` belongs to q-point `i + 1`. -/
noncomputable def calcReorder (reorderGamma : Bool) (qpts : List (V3 ℝ)) : List Bool :=
  let a := true :: directionKept qpts
  if reorderGamma then a
  else
    let a := clearAt a (((gammaAt qpts).filter fun i => decide (0 < i)).map (· - 1))
    clearAt a ((gammaAt qpts).filter fun i => decide (i < qpts.length - 1))

/-- `np.absolute` of a complex number. -/
noncomputable def modulus (z : ℝ × ℝ) : ℝ := Real.sqrt (z.1 ^ 2 + z.2 ^ 2)

/-- `reorder_frequencies` (euphonic/qpoint_phonon_modes.py:81-166): the new frequencies and eigenvectors of all
q-points; without q-points `mode_map[0]` raises `IndexError`. -/
noncomputable def reorderFrequencies {n d : Nat} [NeZero n] (reorderGamma : Bool) (qpts : List (V3 ℝ))
    (ev : Nat → Fin n → Fin d → ℝ × ℝ) (freqs : Nat → Fin n → ℝ) :
    Except Err (List ((Fin n → ℝ) × (Fin n → Fin d → ℝ × ℝ))) :=
  if qpts.length = 0 then .error .indexError
  else (List.range qpts.length).mapM
    (reordered modulus ev (fun i => (calcReorder reorderGamma qpts).getD i true) freqs)

end Euphonic.Reorder
