import Verif.Model.Base
import Mathlib.Algebra.Order.Field.Basic
import Mathlib.Algebra.BigOperators.Fin

/-!
# Model of `QpointPhononModes.reorder_frequencies` (euphonic/qpoint_phonon_modes.py:81-166)

`n` is the number of branches.  The decision whether to compute a new assignment at a q-point
(`calc_reorder`, which depends on the direction of the path and on gamma points) is an arbitrary
Boolean per q-point; the modulus of a complex number (given as a pair) is a parameter `absC`.
-/

set_option autoImplicit false

namespace Euphonic.Reorder

variable {K : Type} [Field K] [LinearOrder K] {n : Nat}

/-- Row-major list of the index pairs of an `n x n` matrix. -/
def pairs (n : Nat) : List (Fin n × Fin n) :=
  (List.finRange n).flatMap fun r => (List.finRange n).map fun c => (r, c)

/-- `numpy.argmax`: the first index with the largest value (`none`: empty array, a `ValueError`). -/
def argmaxFirst {β : Type} (v : β → K) : List β → Option β
  | [] => none
  | a :: l => some (l.foldl (fun best x => if v best < v x then x else best) a)

/-- `dot_mat[mode, :] = 0; dot_mat[:, prev_mode] = 0` (euphonic/qpoint_phonon_modes.py:154-155). -/
def zeroOut (dot : Fin n → Fin n → K) (r c : Fin n) : Fin n → Fin n → K :=
  fun r' c' => if r' = r ∨ c' = c then 0 else dot r' c'

/-- The loop over `j` (euphonic/qpoint_phonon_modes.py:146-158), `t` iterations left: rows of `dot`
are modes of this q-point, columns modes of the previous one; `prev` is `mode_map[i-1]` and `row` is
`mode_map[i]`.  `np.where(prev == c)[0][0]` raises `IndexError` if there is no such index. -/
def assignLoop (prev : Fin n → Fin n) : Nat → (Fin n → Fin n → K) → (Fin n → Fin n) →
    Except Err (Fin n → Fin n)
  | 0, _, row => .ok row
  | t + 1, dot, row =>
    match argmaxFirst (fun p => dot p.1 p.2) (pairs n) with
    | none => .error .valueError
    | some (r, c) =>
      match (List.finRange n).find? fun p => decide (prev p = c) with
      | none => .error .indexError
      | some p => assignLoop prev t (zeroOut dot r c) (Function.update row p r)

/-- `mode_map` of q-point `i` (euphonic/qpoint_phonon_modes.py:107-108, 122-160): the identity for the
first one, the previous map where nothing is calculated; new rows start with zeros. -/
def modeMap [NeZero n] (dots : Nat → Fin n → Fin n → K) (calcAt : Nat → Bool) :
    Nat → Except Err (Fin n → Fin n)
  | 0 => .ok id
  | i + 1 => do
    let prev ← modeMap dots calcAt i
    if calcAt i then assignLoop prev n (dots (i + 1)) fun _ => 0
    else return prev

/-- `dots`: modulus of the sum over atoms and directions of `conj(prev) * current`
(euphonic/qpoint_phonon_modes.py:127-144); an eigenvector is a function on `d` components, a complex
number a pair. -/
def overlap {d : Nat} (absC : K × K → K) (ev : Nat → Fin n → Fin d → K × K) (i : Nat)
    (r c : Fin n) : K :=
  absC (∑ k, ((ev (i - 1) c k).1 * (ev i r k).1 + (ev (i - 1) c k).2 * (ev i r k).2),
    ∑ k, ((ev (i - 1) c k).1 * (ev i r k).2 - (ev (i - 1) c k).2 * (ev i r k).1))

/-- The frequencies of q-point `i` after `reorder_frequencies`
(euphonic/qpoint_phonon_modes.py:162-166). -/
def reordered [NeZero n] {d : Nat} (absC : K × K → K) (ev : Nat → Fin n → Fin d → K × K)
    (calcAt : Nat → Bool) (freqs : Nat → Fin n → K) (i : Nat) :
    Except Err ((Fin n → K) × (Fin n → Fin d → K × K)) := do
  let m ← modeMap (overlap absC ev) calcAt i
  return (fun j => freqs i (m j), fun j => ev i (m j))

end Euphonic.Reorder
