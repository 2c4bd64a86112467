import Verif.Model.Base

/-!
# Model of the memory given to LAPACK's `zheevd` (c/dyn_mat.c:340-386)

`zheevd` is called twice: first to ask for the sizes of the work arrays, then to diagonalise. What it reads and writes is a
parameter of the model in the form of LAPACK's documentation. Addresses are not modelled, only numbers of bytes. That
`malloc` succeeds is assumed; the code does not check it.
-/

set_option autoImplicit false

namespace Euphonic.CWork

/-- The arguments of `zheevd` that are arrays of the caller. -/
inductive Arg where
  | a | w | work | rwork | iwork
  deriving DecidableEq

/-- The numbers passed with them. -/
structure Sizes where
  order : Nat
  lwork : Int
  lrwork : Int
  liwork : Int

/-- A call: the sizes and how many bytes there are at each pointer. -/
structure Call where
  sizes : Sizes
  room : Arg → Nat

/-- The query (c/dyn_mat.c:346-360). Only `liwork` is set to -1, the other two are not initialised (`lw0`, `lr0`). `work`
and `rwork` point to the variables `lworkopt` and `lrworkopt`, which are `double`s, and `iwork` to `liworkopt`, an `int`. -/
def query (n : Nat) (lw0 lr0 : Int) : Call where
  sizes := ⟨3 * n, lw0, lr0, -1⟩
  room
    | .a => 8 * (2 * 9 * n * n)
    | .w => 8 * (3 * n)
    | .work => 8
    | .rwork => 8
    | .iwork => 4

/-- The diagonalisation (c/dyn_mat.c:365-377) with the sizes that were returned. -/
def diagonalise (n lworkopt lrworkopt liworkopt : Nat) : Call where
  sizes := ⟨3 * n, lworkopt, lrworkopt, liworkopt⟩
  room
    | .a => 8 * (2 * 9 * n * n)
    | .w => 8 * (3 * n)
    | .work => 2 * lworkopt * 8
    | .rwork => lrworkopt * 8
    | .iwork => liworkopt * 4

end Euphonic.CWork
