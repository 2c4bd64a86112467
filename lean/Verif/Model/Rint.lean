import Mathlib.Algebra.Order.Floor.Ring
import Mathlib.Algebra.Order.Field.Basic
import Mathlib.Algebra.Group.Int.Even

/-! # `numpy.rint` -/

set_option autoImplicit false

namespace Euphonic

/-- `numpy.rint`: nearest integer, halves to the even neighbour (numpy documentation; used in
euphonic/util.py:71, 360, 371, 377, 492, 713 and euphonic/force_constants.py:95, 499, 1182). -/
def rint {K : Type} [Field K] [LinearOrder K] [FloorRing K] (x : K) : ℤ :=
  if Int.fract x < 1 / 2 then ⌊x⌋
  else if 1 / 2 < Int.fract x then ⌊x⌋ + 1
  else if Even ⌊x⌋ then ⌊x⌋ else ⌊x⌋ + 1

end Euphonic
