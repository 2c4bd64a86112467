/-!
# Python and numpy primitives shared by the models

These are the parts of Python/numpy semantics that the modelled Euphonic code relies on.  They are
part of the trusted base (hand-written from the documentation of Python and numpy).
-/

set_option autoImplicit false

namespace Euphonic

/-- Exceptions raised by the modelled code, one constructor per Python exception class
(messages are not modelled).  `nonFinite` is no exception: it stands for a result in which a division by zero has put
infinities or NaN, which the models do not describe. -/
inductive Err where
  | valueError
  | typeError
  | indexError
  | keyError
  | runtimeError
  | assertionError
  | ioError
  | eofError
  | attributeError
  | importCError
  | dimensionalityError
  | stopIteration
  | offsetUnitError
  | zeroDivisionError
  | structError
  | unboundLocalError
  | nonFinite
  deriving DecidableEq, Repr

/-- Normalisation of a Python slice bound for a sequence of length `n`: negative bounds count from
the end and everything is clamped to `0..n`.  (Python language reference, used by the slices in
euphonic/spectra.py:477, 1202, 1521, 1907.) -/
def pyIdx (n : Nat) (i : Int) : Nat :=
  if i < 0 then (i + n).toNat else min i.toNat n

/-- The Python slice `l[x0:x1]`, `x1 = none` being an omitted/`None` upper bound.
(Python language reference, used in euphonic/spectra.py:477, 1202, 1521, 1907.) -/
def pySlice {α : Type _} (l : List α) (x0 : Int) (x1 : Option Int) : List α :=
  (l.take (match x1 with | none => l.length | some e => pyIdx l.length e)).drop
    (pyIdx l.length x0)

/-- `numpy.diff` of a one-dimensional array (used in euphonic/spectra.py:154, 308, 367). -/
def npDiff {α : Type _} [Sub α] : List α → List α
  | [] => []
  | [_] => []
  | a :: b :: l => (b - a) :: npDiff (b :: l)

/-- Python integer subscript `l[i]` on a list: negative subscripts count from the end, anything
outside `-len..len-1` raises `IndexError`. -/
def pyGet {α : Type _} (l : List α) (i : Int) : Except Err α :=
  let j := if i < 0 then i + l.length else i
  if j < 0 then .error .indexError
  else match l[j.toNat]? with
    | some a => .ok a
    | none => .error .indexError

end Euphonic
